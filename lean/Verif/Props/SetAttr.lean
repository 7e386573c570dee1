import Verif.Model.SetAttr
import Verif.Props.ClassNs

/-! # C105: what the module does not define cannot be assigned to -/

namespace Pyb
open Py Spec

/-- Names that do not start with an underscore are those of children. -/
def PublicIn (kids : List (Str × Bool)) (ns : ClassNs) : Prop :=
  ∀ p ∈ ns, (∃ r, p.1 = '_' :: r) ∨ ∃ k ∈ kids, p.1 = safeName k.1

theorem public_mangle (cls n : Str) : mangle cls n = n ∨ ∃ r, mangle cls n = '_' :: r := by
  unfold mangle
  split
  · exact .inr ⟨_, rfl⟩
  · exact .inl rfl

theorem public_fold {cls : Str} {all : List (Str × Bool)} : ∀ {kids : List (Str × Bool)} {ns ns' : ClassNs}, (∀ k ∈ kids, k ∈ all) → PublicIn all ns →
    kids.foldlM (propStep cls) ns = .ok ns' → PublicIn all ns'
  | [], ns, ns', _, h, e => by
    cases e; exact h
  | k :: kids, ns, ns', hk, h, e => by
    rw [List.foldlM_cons] at e
    cases hs : propStep cls ns k with
    | error x => rw [hs] at e; cases e
    | ok ns1 =>
      rw [hs] at e
      refine public_fold (fun q hq => hk q (by simp [hq])) ?_ e
      unfold propStep at hs
      split at hs
      · cases hs
      · cases hs
        intro p hp
        rcases List.mem_cons.1 hp with rfl | hp
        · rcases public_mangle cls (safeName k.1) with e | ⟨r, e⟩
          · exact .inr ⟨k, hk k (by simp), e⟩
          · exact .inl ⟨r, e⟩
        · exact h p hp

theorem public_slot {cls : Str} {kids : List (Str × Bool)} {s : Str} (h : s ∈ slotNames cls kids) : ∃ r, s = '_' :: r := by
  simp only [slotNames, List.mem_cons, List.mem_map] at h
  rcases h with rfl | rfl | ⟨k, _, rfl⟩
  · exact ⟨_, rfl⟩
  · exact ⟨_, rfl⟩
  · rcases public_mangle cls (py!"__" ++ safeName k.1) with e | ⟨r, e⟩
    · exact ⟨_, e⟩
    · exact ⟨r, e⟩

theorem public_class {cls : Str} {choices : Bool} {kids : List (Str × Bool)} {ns : ClassNs} (h : generatedClass cls choices kids = .ok ns) :
    PublicIn kids ns := by
  unfold generatedClass at h
  cases hf : kids.foldlM (propStep cls) (accessorNs kids ++ ownNames.map fun n => (n, Member.own n)) with
  | error e => rw [hf] at h; cases h
  | ok ns0 =>
    have h0 : PublicIn kids ns0 := by
      refine public_fold (fun k hk => hk) (fun p hp => ?_) hf
      rcases List.mem_append.1 hp with hp | hp
      · obtain ⟨k, _, e⟩ := accessor_mem hp
        rcases e with rfl | rfl | rfl <;> exact .inl ⟨_, rfl⟩
      · obtain ⟨n, hn, rfl⟩ := List.mem_map.1 hp
        have : ∀ n ∈ ownNames, ∃ r, n = '_' :: r := by
          intro n hn
          simp only [ownNames, List.mem_cons, List.not_mem_nil, or_false] at hn
          rcases hn with rfl | rfl | rfl | rfl | rfl | rfl <;> exact ⟨_, rfl⟩
        exact .inl (this n hn)
    rw [hf] at h
    simp only at h
    have h1 : PublicIn kids (if choices then (py!"__choices__", Member.own py!"__choices__") :: ns0 else ns0) := by
      split
      · intro p hp
        rcases List.mem_cons.1 hp with rfl | hp
        · exact .inl ⟨_, rfl⟩
        · exact h0 p hp
      · exact h0
    generalize (if choices then (py!"__choices__", Member.own py!"__choices__") :: ns0 else ns0) = ns1 at h h1
    split at h
    · cases h
    · split at h
      · cases h
      · cases h
        intro p hp
        rcases List.mem_append.1 hp with hp | hp
        · obtain ⟨s, hs, rfl⟩ := List.mem_map.1 hp
          exact .inl (public_slot hs)
        · rcases List.mem_cons.1 hp with rfl | hp
          · exact .inl ⟨_, rfl⟩
          · exact h1 p hp

theorem wrapper_public {n : Str} (h : n ∈ wrapperSlots) : ∃ r, n = '_' :: r := by
  have : ∀ n ∈ wrapperSlots, n.head? = some '_' := by decide
  cases n with
  | nil => exact absurd (this _ h) (by simp)
  | cons c r =>
    have := this _ h
    simp only [List.head?_cons, Option.some.injEq] at this
    exact ⟨r, by rw [this]⟩

/-- C105, in part: an attribute that is not that of a child, and whose name does not start with an
underscore, cannot be assigned to: in the object of a module, in containers and in entries of
lists with a key, if they have children.  Names are arbitrary, those of the library's methods
included.  Missing: objects without children, and those of rpcs and notifications. -/
theorem C105_refused_partial (cls : Str) (choices : Bool) (kids : List (Str × Bool)) (hne : kids ≠ []) (ns : ClassNs)
    (hload : generatedClass cls choices kids = .ok ns) (kind : ObjKind)
    (hkind : kind = .plain ∨ kind = childKind py!"container" ∨ kind = entryKind) (n : Str) (hn : n.head? ≠ some '_')
    (hnew : ∀ k ∈ kids, n ≠ safeName k.1) : setAttr cls choices kids kind n = .error .attributeError := by
  have hd : hasDict kids kind = false := by
    cases kids with
    | nil => exact absurd rfl hne
    | cons k ks => rcases hkind with rfl | rfl | rfl <;> rfl
  have hl : ns.lookup n = none := lookup_not fun p hp e => by
    rcases public_class hload p hp with ⟨r, hr⟩ | ⟨k, hk, hr⟩
    · rw [← e, hr] at hn; exact hn rfl
    · exact hnew k hk (by rw [← e, hr])
  have hs : n ∉ wrapperSlots := fun h => by
    obtain ⟨r, rfl⟩ := wrapper_public h
    exact hn rfl
  have ha : attrOf kind.isWrapped ns n = some (.lib n) ∨ attrOf kind.isWrapped ns n = none := by
    unfold attrOf
    rw [hl]
    split
    · exact .inl rfl
    · simp only
      split
      · exact .inl rfl
      · exact .inr rfl
  unfold setAttr
  rw [show anyClass cls choices kids = .ok ns by rw [anyClass, if_neg hne, hload]]
  rcases ha with ha | ha
  · simp [ha, hs, hd]
  · simp [ha, hd]

/-- C105, the other half: children can be assigned to, but for those that are not config; names
as in C104. -/
theorem C105_children_partial (cls : Str) (choices : Bool) (kids : List (Str × Bool)) (hc : UsualClass cls)
    (hp : ∀ k ∈ kids, UsualName k.1) (hd : (kids.map fun k => safeName k.1).Nodup) (ho : ∀ k ∈ kids, k.1 ≠ py!"OrderedDict")
    (kind : ObjKind) (k : Str × Bool) (hk : k ∈ kids) (hm : k.1 ≠ py!"append" ∧ k.1 ≠ py!"extend") :
    setAttr cls choices kids kind (safeName k.1) = (if k.2 then .ok (.calls (.setter (safeName k.1))) else .error .attributeError) := by
  obtain ⟨ns, e, h⟩ := C104_reached_partial cls choices kids hc hp hd ho
  have ha := (h k hk kind.isWrapped).1 (fun h => h.2.elim hm.1 hm.2)
  unfold setAttr
  rw [show anyClass cls choices kids = .ok ns by rw [anyClass, if_neg (List.ne_nil_of_mem hk), e]]
  simp only [ha, childAttr]
  cases k.2 <;> rfl

/-- A container with a read-only leaf: a misspelt name, a method of the library and the leaf are
refused. -/
example : (∃ ns, generatedClass py!"yc_c_m__c" false sampleKids = .ok ns) ∧
    setAttr py!"yc_c_m__c" false sampleKids (childKind py!"container") py!"oper_satus" = .error .attributeError ∧
    setAttr py!"yc_c_m__c" false sampleKids (childKind py!"container") py!"get" = .error .attributeError ∧
    setAttr py!"yc_c_m__c" false sampleKids (childKind py!"container") py!"oper_status" = .error .attributeError ∧
    setAttr py!"yc_c_m__c" false sampleKids (childKind py!"container") py!"class_" = .ok (.calls (.setter py!"class_")) :=
  ⟨⟨_, rfl⟩, by decide, by decide, by decide, by decide⟩

/-- C105 is false for containers without children (presence containers) and for modules without
data: every name can be assigned to.  (Names with underscores, `__class__` for one, are left to Python.) -/
theorem C105_empty_refuted (cls : Str) (choices : Bool) (kind : ObjKind) (n : Str) (_hn : n.head? ≠ some '_') : setAttr cls choices [] kind n = .ok .stored := by
  have hd : hasDict [] kind = true := by cases kind <;> rfl
  unfold setAttr
  simp only [anyClass, if_pos]
  have ha : attrOf kind.isWrapped [(py!"_pyangbind_elements", .own py!"_pyangbind_elements")] n = some (.lib n) ∨
      attrOf kind.isWrapped [(py!"_pyangbind_elements", .own py!"_pyangbind_elements")] n = some (.own py!"_pyangbind_elements") ∨
      attrOf kind.isWrapped [(py!"_pyangbind_elements", .own py!"_pyangbind_elements")] n = none := by
    unfold attrOf
    split
    · exact .inl rfl
    · rw [List.lookup_cons]
      cases n == py!"_pyangbind_elements" with
      | true => exact .inr (.inl rfl)
      | false =>
        simp only [List.lookup_nil]
        split
        · exact .inl rfl
        · exact .inr (.inr rfl)
  rcases ha with ha | ha | ha <;> simp [ha, hd]

theorem stored_of_dict {cls : Str} {choices : Bool} {kids : List (Str × Bool)} {ns : ClassNs} {kind : ObjKind}
    (hload : generatedClass cls choices kids = .ok ns) (hne : kids ≠ []) (hd : hasDict kids kind = true) {n : Str} (hn : n.head? ≠ some '_')
    (hnew : ∀ k ∈ kids, n ≠ safeName k.1) : setAttr cls choices kids kind n = .ok .stored := by
  have hl : ns.lookup n = none := lookup_not fun p hp e => by
    rcases public_class hload p hp with ⟨r, hr⟩ | ⟨k, hk, hr⟩
    · rw [← e, hr] at hn; exact hn rfl
    · exact hnew k hk (by rw [← e, hr])
  have ha : attrOf kind.isWrapped ns n = some (.lib n) ∨ attrOf kind.isWrapped ns n = none := by
    unfold attrOf
    rw [hl]
    split
    · exact .inl rfl
    · simp only
      split
      · exact .inl rfl
      · exact .inr rfl
  unfold setAttr
  rw [show anyClass cls choices kids = .ok ns by rw [anyClass, if_neg hne, hload]]
  rcases ha with ha | ha
  · simp [ha, hd]
  · simp [ha, hd]

/-- C105 is false for the `input` and `output` of an rpc, for rpcs and for notifications that are
reached from the object above: what is not the name of a child is stored without a complaint,
and sets nothing. -/
theorem C105_rpc_refuted (cls : Str) (choices : Bool) (kids : List (Str × Bool)) (ns : ClassNs)
    (hload : generatedClass cls choices kids = .ok ns) (hne : kids ≠ []) (keyword : Str)
    (hw : keyword ∈ [py!"input", py!"output", py!"rpc", py!"notification"]) (n : Str) (hn : n.head? ≠ some '_') (hnew : ∀ k ∈ kids, n ≠ safeName k.1) :
    setAttr cls choices kids (childKind keyword) n = .ok .stored := by
  refine stored_of_dict hload hne ?_ hn hnew
  simp only [List.mem_cons, List.not_mem_nil, or_false] at hw
  cases kids with
  | nil => exact absurd rfl hne
  | cons k ks => rcases hw with rfl | rfl | rfl | rfl <;> rfl

/-- C105 is false for entries of lists without a key. -/
theorem C105_keyless_refuted (cls : Str) (choices : Bool) (kids : List (Str × Bool)) (ns : ClassNs)
    (hload : generatedClass cls choices kids = .ok ns) (hne : kids ≠ []) (n : Str) (hn : n.head? ≠ some '_') (hnew : ∀ k ∈ kids, n ≠ safeName k.1) :
    setAttr cls choices kids keylessKind n = .ok .stored :=
  stored_of_dict hload hne (by cases kids with | nil => exact absurd rfl hne | cons k ks => rfl) hn hnew

/-- `check.input.argumnet = "test"`. -/
example : (∃ ns, generatedClass py!"yc_input_rpc__rpc_rpc_check_input" false [(py!"argument", true)] = .ok ns) ∧
    setAttr py!"yc_input_rpc__rpc_rpc_check_input" false [(py!"argument", true)] (childKind py!"input") py!"argumnet" = .ok .stored :=
  ⟨⟨_, rfl⟩, by decide⟩

end Pyb
