import Verif.Model.Root
import Verif.Lemmas.Shared

/-! # The object at `/`: what is registered at one step -/

namespace Pyb
open Py Spec

variable {K : PyVal → Prop}

/-! ## What is unregistered -/

mutual
theorem regNew_registers (loc : List PStep) : ∀ (S : Schema) (q : List PStep), RegOp.unregister q ∉ regNew loc S
  | .leaf _, q => by simp [regNew]
  | .leafList _, q => by simp [regNew]
  | .cont _ kids, q => by
    have := regKids_registers loc kids q
    simp [regNew, this]
  | .list _ _, q => by simp [regNew]
theorem regKids_registers (loc : List PStep) : ∀ (kids : List (Meta × Schema)) (q : List PStep), RegOp.unregister q ∉ regKids loc kids
  | [], q => by simp [regKids]
  | k :: ks, q => by
    have h1 := regNew_registers (loc ++ [⟨k.1.name, []⟩]) k.2 q
    have h2 := regKids_registers loc ks q
    simp [regKids, h1, h2]
end

theorem regClear_registers (loc : List PStep) (c : Choice) : ∀ (kids : List (Meta × Schema)) (q : List PStep), RegOp.unregister q ∉ regClear loc c kids
  | [], q => by simp [regClear]
  | k :: ks, q => by
    have h1 := regNew_registers (loc ++ [⟨k.1.name, []⟩]) k.2 q
    have h2 := regClear_registers loc c ks q
    simp only [regClear, List.mem_append, not_or]
    refine ⟨?_, h2⟩
    split
    · exact h1
    · simp

theorem passUp_unregisters {loc : List PStep} {own : Option Choice} {kids : List (Meta × Schema)} {q : List PStep} :
    ∀ {es : List Ev}, Ev.call (.unregister q) ∈ passUp loc own kids es → Ev.call (.unregister q) ∈ es
  | [], h => by simp [passUp] at h
  | .call r :: es, h => by
    simp only [passUp, List.mem_cons] at h ⊢
    exact h.imp_right passUp_unregisters
  | .sig none :: es, h => by
    simp only [passUp, List.mem_cons] at h ⊢
    rcases h with h | h
    · cases h
    · exact .inr (passUp_unregisters h)
  | .sig (some c) :: es, h => by
    simp only [passUp, List.mem_append, List.mem_map, List.mem_cons] at h ⊢
    rcases h with ⟨r, hr, e⟩ | h | h
    · cases e
      exact absurd hr (regClear_registers _ _ _ _)
    · cases h
    · exact .inr (passUp_unregisters h)

theorem leafEvs_unregisters {loc : List PStep} {L : LeafCls} {own : Option Choice} {v : PyVal} {q : List PStep} :
    Ev.call (.unregister q) ∉ leafEvs loc L own v := by
  unfold leafEvs
  split <;> simp

theorem llEvs_unregisters {loc : List PStep} {L : LLCls} {own : Option Choice} {xs : List PyVal} {op : LLOp} {q : List PStep} :
    Ev.call (.unregister q) ∉ llEvs loc L own xs op := by
  unfold llEvs
  cases op <;> dsimp only
  case assign => split <;> simp
  case iadd => split <;> simp
  all_goals split <;> simp

theorem keyEvs_unregisters {loc : List PStep} {kids : List (Meta × Schema)} {q : List PStep} :
    ∀ {e : Inst} {rs : List (Nat × PyVal)}, Ev.call (.unregister q) ∉ keyEvs loc kids e rs
  | _, [] => by simp [keyEvs]
  | e, (j, r) :: rs => by
    simp only [keyEvs, List.mem_append, not_or]
    constructor
    · split
      · intro h
        exact leafEvs_unregisters (passUp_unregisters h)
      · simp
    · split
      · exact keyEvs_unregisters
      · simp

theorem entryEvs_unregisters {loc : List PStep} {info : ListInfo} {kids : List (Meta × Schema)} {raws : List PyVal} {q : List PStep} :
    Ev.call (.unregister q) ∉ entryEvs loc info kids raws := by
  have h1 := regKids_registers loc kids q
  have h2 := @keyEvs_unregisters loc kids q (.cont false false (freshKids kids)) (info.keys.zip raws)
  simp [entryEvs, h1, h2]

theorem nodeEvs_unregisters {up : List PStep} {name : Str} {S : Schema} {own : Option Choice} {n : Inst} {op : Op} {q : List PStep}
    (h : Ev.call (.unregister q) ∈ nodeEvs up name S own n op) : ∃ s r, q = up ++ s :: r ∧ s.tag = name ∧ ((∀ info ks, S ≠ .list info ks) → r ≠ []) := by
  unfold nodeEvs at h
  split at h
  · obtain ⟨c, hc, e⟩ := List.mem_map.1 h
    cases e
    exact absurd hc (regNew_registers _ _ _)
  · exact absurd h leafEvs_unregisters
  · exact absurd h llEvs_unregisters
  · simp at h
  · split at h
    · cases h
    · unfold addEvs at h
      split at h
      · cases h
      · split at h
        · cases h
        · split at h
          · cases h
          · split at h
            · cases h
            · exact absurd h entryEvs_unregisters
  · split at h
    · cases h
    · unfold addNamedEvs at h
      split at h
      · cases h
      · split at h
        · cases h
        · exact absurd h entryEvs_unregisters
  · unfold deleteEvs at h
    split at h
    · simp only [List.mem_singleton, Ev.call.injEq, RegOp.unregister.injEq] at h
      subst h
      exact ⟨_, [], rfl, rfl, fun h => absurd rfl (h _ _)⟩
    · cases h
  · cases h

/-- What is unregistered is at or below the child, and at it only if it is a list. -/
theorem runEvs_unregisters {op : Op} {q : List PStep} : ∀ (p : Path) {up : List PStep} {name : Str} {S : Schema} {own : Option Choice} {n : Inst},
    Ev.call (.unregister q) ∈ runEvs up name S own n p op → ∃ s r, q = up ++ s :: r ∧ s.tag = name ∧ ((∀ info ks, S ≠ .list info ks) → r ≠ [])
  | [], up, name, S, own, n, h => by
    rw [runEvs] at h
    exact nodeEvs_unregisters h
  | .field i :: p, up, name, S, own, n, h => by
    cases S with
    | cont pr kids =>
      cases n with
      | cont ch pres ns =>
        simp only [runEvs] at h
        split at h
        · obtain ⟨s, r, e, -, -⟩ := runEvs_unregisters p (passUp_unregisters h)
          exact ⟨_, s :: r, by rw [e, List.append_assoc]; rfl, rfl, fun _ => by simp⟩
        · cases h
      | _ => simp [runEvs] at h
    | _ => simp [runEvs] at h
  | [.key k], up, name, S, own, n, h => by
    cases S <;> cases n <;> simp [runEvs] at h
  | .key k :: .key k' :: p, up, name, S, own, n, h => by
    cases S <;> cases n <;> simp [runEvs] at h
  | .key k :: .field i :: p, up, name, S, own, n, h => by
    cases S with
    | list info kids =>
      cases n with
      | list c es =>
        simp only [runEvs] at h
        split at h
        · cases h
        · split at h
          · split at h
            · cases h
            · split at h
              · obtain ⟨s, r, e, -, -⟩ := runEvs_unregisters p (passUp_unregisters h)
                exact ⟨_, s :: r, by rw [e, List.append_assoc]; rfl, rfl, fun _ => by simp⟩
              · cases h
          · cases h
      | _ => simp [runEvs] at h
    | _ => simp [runEvs] at h

theorem mem_callsOf {c : RegOp} : ∀ {es : List Ev}, c ∈ callsOf es → Ev.call c ∈ es
  | [], h => by cases h
  | .call c' :: es, h => by
    simp only [callsOf, List.mem_cons] at h
    rcases h with rfl | h
    · exact List.mem_cons_self
    · exact List.mem_cons_of_mem _ (mem_callsOf h)
  | .sig _ :: es, h => List.mem_cons_of_mem _ (mem_callsOf h)

theorem rootCalls_unregisters {kids : List (Meta × Schema)} {ns : List Inst} {p : Path} {op : Op} {q : List PStep}
    (h : RegOp.unregister q ∈ rootCalls kids ns p op) : ∃ k ∈ kids, ∃ s r, q = s :: r ∧ s.tag = k.1.name ∧ ((∀ info ks, k.2 ≠ .list info ks) → r ≠ []) := by
  unfold rootCalls at h
  split at h
  · split at h
    · rename_i k c hk hc
      obtain ⟨s, r, e, h1, h2⟩ := runEvs_unregisters _ (mem_callsOf h)
      exact ⟨k, List.mem_of_getElem? hk, s, r, e, h1, h2⟩
    · cases h
  · cases h

theorem makeAll_registers (q : List PStep) : ∀ (mods : List (List (Meta × Schema))), RegOp.unregister q ∉ makeAll mods
  | [] => by simp [makeAll]
  | kids :: mods => by simp [makeAll, regKids_registers, makeAll_registers q mods]

theorem sharedCalls_unregisters {mods : List (List (Meta × Schema))} {q : List PStep} : ∀ (evs : List SharedOp) (nss : List (List Inst)),
    RegOp.unregister q ∈ sharedCalls mods nss evs →
    ∃ k ∈ mods.flatten, ∃ s r, q = s :: r ∧ s.tag = k.1.name ∧ ((∀ info ks, k.2 ≠ .list info ks) → r ≠ [])
  | [], nss, h => by cases h
  | (i, p, op) :: evs, nss, h => by
    simp only [sharedCalls] at h
    split at h
    · rename_i kids ns hk hn
      rcases List.mem_append.1 h with h | h
      · obtain ⟨k, hkm, rest⟩ := rootCalls_unregisters h
        exact ⟨k, List.mem_flatten.2 ⟨kids, List.mem_of_getElem? hk, hkm⟩, rest⟩
      · exact sharedCalls_unregisters evs _ h
    · exact sharedCalls_unregisters evs _ h

/-! ## The attributes -/

theorem text_plain (t : Str) : PStep.text ⟨t, []⟩ = t := by simp [PStep.text]

theorem text_good_inj {s s' : PStep} (h : s.Good) (h' : s'.Good) (e : s.text = s'.text) : s = s' := by
  have h1 := tagAttrs_text h
  rw [e, tagAttrs_text h'] at h1
  cases s with
  | mk t ks =>
    cases s' with
    | mk t' ks' =>
      simp only [Except.ok.injEq, Prod.mk.injEq] at h1
      obtain ⟨h1, h2⟩ := h1
      subst h1
      by_cases e1 : ks = [] <;> by_cases e2 : ks' = [] <;> simp_all

theorem root_fold {s0 : PStep} (h0 : s0.Good) : ∀ (cs : List RegOp) (d : Dict (Str × XObj)) (m : Registry),
    (∀ c ∈ cs, ∃ s r, c.path = s :: r ∧ s.Good) → RegOp.unregister [s0] ∉ cs → (d.get? s0.text).map (·.2) = m [s0] →
    ((cs.foldl rootStep d).get? s0.text).map (·.2) = after m cs [s0] := by
  intro cs
  induction cs with
  | nil => intro d m _ _ h; exact h
  | cons c cs ih =>
    intro d m hg hu h
    rw [List.foldl_cons, after_cons]
    refine ih _ _ (fun c hc => hg c (by simp [hc])) (fun x => hu (by simp [x])) ?_
    obtain ⟨s, r, e, hs⟩ := hg c (by simp)
    cases c with
    | register p o =>
      have : p = s :: r := e
      subst this
      cases r with
      | nil =>
        simp only [rootStep, effect, Dict.get?_set]
        by_cases e1 : s0 = s
        · subst e1
          simp
        · rw [if_neg fun x => e1 (text_good_inj h0 hs x), if_neg (by simpa using e1)]
          exact h
      | cons s2 r =>
        simp only [rootStep, effect]
        rw [if_neg (by simp)]
        exact h
    | unregister p =>
      have : p = s :: r := e
      subst this
      have hne : (s :: r).isPrefixOf [s0] = false := by
        rw [Bool.eq_false_iff]
        intro x
        have := List.isPrefixOf_iff_prefix.1 x
        obtain ⟨t, ht⟩ := this
        cases r with
        | nil =>
          simp at ht
          exact hu (by simp [ht.1])
        | cons => simp at ht
      simp only [rootStep, effect, hne]
      exact h

/-! ## The elements -/

theorem rootStep_keys {kids : List (Meta × Schema)} {d : Dict (Str × XObj)} {c : RegOp} (hl : ∀ k ∈ kids, ∀ info ks, k.2 ≠ .list info ks)
    (hc : ∃ s r, c.path = s :: r ∧ PathOk (s :: r) kids) (hd : d.map (·.1) = kids.map (·.1.name)) : (rootStep d c).map (·.1) = kids.map (·.1.name) := by
  obtain ⟨s, r, e, k, hk, hn, hp⟩ := hc
  cases c with
  | unregister p => exact hd
  | register p o =>
    have : p = s :: r := e
    subst this
    cases r with
    | cons => exact hd
    | nil =>
      have hs : s.keys = [] := by
        cases hS : k.2 with
        | leaf L => rw [hS] at hp; exact hp.1
        | leafList L => rw [hS] at hp; exact hp.1
        | cont pr ks => rw [hS] at hp; exact hp.1
        | list info ks => exact absurd hS (hl k hk info ks)
      have ht : s.text = s.tag := by simp [PStep.text, hs]
      have hh : s.text ∈ d.map (·.1) := by
        rw [hd, ht, ← hn]
        exact List.mem_map.2 ⟨k, hk, rfl⟩
      simp only [rootStep]
      rw [Dict.keys_set, if_pos hh, hd]

theorem root_long {cs : List RegOp} : ∀ (d : Dict (Str × XObj)), (∀ c ∈ cs, ∃ s s' r, c.path = s :: s' :: r) → cs.foldl rootStep d = d := by
  induction cs with
  | nil => intros; rfl
  | cons c cs ih =>
    intro d h
    obtain ⟨s, s', r, e⟩ := h c (by simp)
    have : rootStep d c = d := by
      cases c with
      | unregister p => rfl
      | register p o =>
        have : p = s :: s' :: r := e
        subst this
        rfl
    rw [List.foldl_cons, this]
    exact ih d fun c hc => h c (by simp [hc])

theorem root_new {t : Str} {S : Schema} (hS : ∀ info ks, S ≠ .list info ks) (d : Dict (Str × XObj)) :
    ∃ o, (regNew [⟨t, []⟩] S).foldl rootStep d = d.set t (t, o) := by
  cases S with
  | leaf L => exact ⟨leafObj L.zero, by simp only [regNew, List.foldl_cons, List.foldl_nil, rootStep, text_plain]⟩
  | leafList L => exact ⟨llObj, by simp only [regNew, List.foldl_cons, List.foldl_nil, rootStep, text_plain]⟩
  | list info ks => exact absurd rfl (hS info ks)
  | cont pr ks =>
    refine ⟨contObj, ?_⟩
    simp only [regNew, List.foldl_cons, rootStep, text_plain]
    refine root_long _ fun c hc => ?_
    obtain ⟨s, r, e, _⟩ := regKids_paths [⟨t, []⟩] ks c hc
    exact ⟨_, s, r, e⟩

theorem root_make : ∀ (kids : List (Meta × Schema)) (d : Dict (Str × XObj)), (∀ k ∈ kids, ∀ info ks, k.2 ≠ .list info ks) →
    (d.map (·.1) ++ kids.map (·.1.name)).Nodup → ((regKids [] kids).foldl rootStep d).map (·.1) = d.map (·.1) ++ kids.map (·.1.name) := by
  intro kids
  induction kids with
  | nil => intro d _ _; simp [regKids]
  | cons k ks ih =>
    intro d hl hn
    obtain ⟨o, ho⟩ := root_new (t := k.1.name) (hl k (by simp)) d
    have hh : k.1.name ∉ d.map (·.1) := by
      intro hm
      rw [List.nodup_append] at hn
      exact hn.2.2 _ hm _ (by simp) rfl
    have hk : (d.set k.1.name (k.1.name, o)).map (·.1) = d.map (·.1) ++ [k.1.name] := by rw [Dict.keys_set, if_neg hh]
    rw [regKids, List.foldl_append, List.nil_append, ho, ih _ (fun k hk => hl k (by simp [hk])) (by rw [hk]; simpa using hn), hk]
    simp

theorem regKids_append (loc : List PStep) : ∀ (a b : List (Meta × Schema)), regKids loc (a ++ b) = regKids loc a ++ regKids loc b
  | [], b => by simp [regKids]
  | k :: a, b => by simp [regKids, regKids_append loc a b]

theorem makeAll_eq : ∀ (mods : List (List (Meta × Schema))), makeAll mods = regKids [] mods.flatten
  | [] => by simp [makeAll, regKids]
  | kids :: mods => by simp [makeAll, regKids_append, makeAll_eq mods]

theorem root_keys {kids : List (Meta × Schema)} (hl : ∀ k ∈ kids, ∀ info ks, k.2 ≠ .list info ks) : ∀ (cs : List RegOp) (d : Dict (Str × XObj)),
    CallsUnder [] kids cs → d.map (·.1) = kids.map (·.1.name) → (cs.foldl rootStep d).map (·.1) = kids.map (·.1.name) := by
  intro cs
  induction cs with
  | nil => intro d _ h; exact h
  | cons c cs ih =>
    intro d hu h
    exact ih _ (fun c hc => hu c (by simp [hc])) (rootStep_keys hl (hu c (by simp)) h)

theorem pathOk_plain {kids : List (Meta × Schema)} (hl : ∀ k ∈ kids, ∀ info ks, k.2 ≠ .list info ks) {s : PStep} {r : List PStep}
    (h : PathOk (s :: r) kids) : s.keys = [] := by
  obtain ⟨k, hk, hn, hp⟩ := h
  cases hS : k.2 with
  | leaf L => rw [hS] at hp; exact hp.1
  | leafList L => rw [hS] at hp; exact hp.1
  | cont pr ks => rw [hS] at hp; exact hp.1
  | list info ks => exact absurd hS (hl k hk info ks)

theorem mem_set_dict {α : Type} {k : Str} {v : α} : ∀ {d : Dict α} {x : Str × α}, x ∈ d.set k v → x = (k, v) ∨ x ∈ d
  | [], x, h => by
    simp only [Dict.set, List.mem_singleton] at h
    exact .inl h
  | (k', v') :: d, x, h => by
    simp only [Dict.set] at h
    split at h
    · rename_i e
      rcases List.mem_cons.1 h with h | h
      · subst e
        exact .inl h
      · exact .inr (List.mem_cons_of_mem _ h)
    · rcases List.mem_cons.1 h with h | h
      · exact .inr (by rw [h]; exact List.mem_cons_self)
      · exact (mem_set_dict h).imp_right (List.mem_cons_of_mem _)

theorem root_names {kids : List (Meta × Schema)} (hl : ∀ k ∈ kids, ∀ info ks, k.2 ≠ .list info ks) : ∀ (cs : List RegOp) (d : Dict (Str × XObj)),
    CallsUnder [] kids cs → (∀ x ∈ d, x.2.1 = x.1) → ∀ x ∈ cs.foldl rootStep d, x.2.1 = x.1 := by
  intro cs
  induction cs with
  | nil => intro d _ h; exact h
  | cons c cs ih =>
    intro d hu h
    refine ih _ (fun c hc => hu c (by simp [hc])) ?_
    obtain ⟨s, r, e, hp⟩ := hu c (by simp)
    have hs := pathOk_plain hl hp
    cases c with
    | unregister p => exact h
    | register p o =>
      have : p = s :: r := e
      subst this
      cases r with
      | cons => exact h
      | nil =>
        intro x hx
        rcases mem_set_dict (show x ∈ d.set s.text (s.tag, o) from hx) with rfl | hx
        · simp [PStep.text, hs]
        · exact h x hx

theorem set_new {α : Type} {k : Str} {v : α} : ∀ {d : Dict α}, k ∉ d.map (·.1) → d.set k v = d ++ [(k, v)]
  | [], _ => rfl
  | (k', v') :: d, h => by
    simp only [List.map_cons, List.mem_cons, not_or] at h
    simp only [Dict.set]
    rw [if_neg fun e => h.1 e.symm, set_new h.2]
    rfl

theorem rootGet_go : ∀ (d : Dict (Str × XObj)) (g : Dict XObj), (∀ x ∈ d, x.2.1 = x.1) → (g.map (·.1) ++ d.map (·.1)).Nodup →
    d.foldl (fun g x => g.set x.2.1 x.2.2) g = g ++ d.map fun x => (x.1, x.2.2)
  | [], g, _, _ => by simp
  | x :: d, g, h, hn => by
    have hx : x.1 ∉ g.map (·.1) := by
      intro hm
      rw [List.nodup_append] at hn
      exact hn.2.2 _ hm _ (by simp) rfl
    rw [List.foldl_cons, h x (by simp), set_new hx, rootGet_go d _ (fun x hx => h x (by simp [hx])) (by simpa using hn)]
    simp

theorem rootGet_eq {d : Dict (Str × XObj)} (h : ∀ x ∈ d, x.2.1 = x.1) (hn : (d.map (·.1)).Nodup) : rootGet d = d.map fun x => (x.1, x.2.2) := by
  rw [rootGet, rootGet_go d [] h (by simpa using hn)]
  rfl

theorem get?_mapped (k : Str) : ∀ (d : Dict (Str × XObj)), Dict.get? (d.map fun x => (x.1, x.2.2)) k = (d.get? k).map (·.2)
  | [] => rfl
  | x :: d => by
    rw [List.map_cons, Dict.get?_cons, Dict.get?_cons, get?_mapped k d]
    split <;> rfl

end Pyb
