import Verif.Spec.Reg
import Verif.Lemmas.TreeFlat

/-! # The registry follows the tree: effects and new objects -/

namespace Pyb
open Py Spec

/-- Calls that can all be done, one after the other. -/
def AllOk : Registry → List RegOp → Prop
  | _, [] => True
  | m, c :: cs => OpAllowed m c ∧ AllOk (effect m c) cs

/-- What they leave. -/
def after (m : Registry) (cs : List RegOp) : Registry := cs.foldl effect m

@[simp] theorem after_nil (m : Registry) : after m [] = m := rfl
@[simp] theorem after_cons (m : Registry) (c : RegOp) (cs : List RegOp) : after m (c :: cs) = after (effect m c) cs := rfl
theorem after_append (m : Registry) (a b : List RegOp) : after m (a ++ b) = after (after m a) b := by simp [after]

theorem allOk_append {m : Registry} {a b : List RegOp} : AllOk m (a ++ b) ↔ AllOk m a ∧ AllOk (after m a) b := by
  induction a generalizing m with
  | nil => simp [AllOk]
  | cons c a ih => simp [AllOk, ih, and_assoc]

/-- The path is that of a child (or entry) with the name, or below. -/
def Below (loc : List PStep) (t : Str) (q : List PStep) : Prop := ∃ s r, q = loc ++ s :: r ∧ s.tag = t

theorem below_ext {loc : List PStep} {t : Str} {p q : List PStep} (h : Below loc t p) (hq : p <+: q) : Below loc t q := by
  obtain ⟨s, r, rfl, rfl⟩ := h
  obtain ⟨u, rfl⟩ := hq
  exact ⟨s, r ++ u, by simp, rfl⟩

theorem below_unique {loc : List PStep} {t u : Str} {q : List PStep} (h : Below loc t q) (h' : Below loc u q) : t = u := by
  obtain ⟨s, r, rfl, rfl⟩ := h
  obtain ⟨s', r', h, rfl⟩ := h'
  simp at h
  rw [h.1]

theorem not_below_self {loc : List PStep} {t : Str} : ¬ Below loc t loc := by
  rintro ⟨s, r, h, _⟩
  have := congrArg List.length h
  simp at this

theorem effect_off {loc : List PStep} {t : Str} {m : Registry} {c : RegOp} {q : List PStep} (hc : Below loc t c.path) (hq : ¬ Below loc t q) :
    effect m c q = m q := by
  cases c with
  | register p o =>
    simp only [effect, RegOp.path] at hc ⊢
    rw [if_neg]
    rintro rfl
    exact hq hc
  | unregister p =>
    simp only [effect, RegOp.path] at hc ⊢
    rw [if_neg]
    intro h
    exact hq (below_ext hc (List.isPrefixOf_iff_prefix.1 h))

theorem after_off {loc : List PStep} {t : Str} {cs : List RegOp} (hc : ∀ c ∈ cs, Below loc t c.path) :
    ∀ {m : Registry} {q : List PStep}, ¬ Below loc t q → after m cs q = m q := by
  induction cs with
  | nil => intros; rfl
  | cons c cs ih =>
    intro m q hq
    rw [after_cons, ih (fun c h => hc c (by simp [h])) hq, effect_off (hc c (by simp)) hq]

/-- The registries agree at the object and below its child. -/
def EqOn (loc : List PStep) (t : Str) (m m' : Registry) : Prop := m loc = m' loc ∧ ∀ q, Below loc t q → m q = m' q

theorem eqOn_refl (loc : List PStep) (t : Str) (m : Registry) : EqOn loc t m m := ⟨rfl, fun _ _ => rfl⟩

theorem allowed_congr {loc : List PStep} {t : Str} {m m' : Registry} {c : RegOp} (hc : Below loc t c.path) (h : EqOn loc t m m') :
    OpAllowed m c ↔ OpAllowed m' c := by
  cases c with
  | register p o =>
    simp only [RegOp.path] at hc
    have hd : m p.dropLast = m' p.dropLast := by
      obtain ⟨s, r, rfl, rfl⟩ := hc
      cases r with
      | nil => simpa using h.1
      | cons u r =>
        apply h.2
        exact ⟨s, (u :: r).dropLast, by simp [List.dropLast_append_of_ne_nil], rfl⟩
    simp only [OpAllowed, h.2 p hc, hd]
  | unregister p =>
    simp only [RegOp.path] at hc
    simp only [OpAllowed, h.2 p hc]

theorem effect_congr {loc : List PStep} {t : Str} {m m' : Registry} {c : RegOp} (hc : Below loc t c.path) (h : EqOn loc t m m') :
    EqOn loc t (effect m c) (effect m' c) := by
  refine ⟨by rw [effect_off hc not_below_self, effect_off hc not_below_self]; exact h.1, fun q hq => ?_⟩
  cases c <;> simp only [effect, h.2 q hq]

theorem allOk_congr {loc : List PStep} {t : Str} {cs : List RegOp} (hc : ∀ c ∈ cs, Below loc t c.path) :
    ∀ {m m' : Registry}, EqOn loc t m m' → (AllOk m cs ↔ AllOk m' cs) ∧ EqOn loc t (after m cs) (after m' cs) := by
  induction cs with
  | nil => intro m m' h; exact ⟨Iff.rfl, h⟩
  | cons c cs ih =>
    intro m m' h
    have h1 := allowed_congr (hc c (by simp)) h
    have h2 := ih (fun c h => hc c (by simp [h])) (effect_congr (hc c (by simp)) h)
    exact ⟨by simp only [AllOk, h1, h2.1], h2.2⟩

/-- An object can be put there. -/
def Held (loc : List PStep) (m : Registry) : Prop := loc = [] ∨ (m loc).isSome = true

theorem held_register {loc : List PStep} {m : Registry} (h : Held loc m) (s : PStep) (o : XObj) : OpAllowed m (.register (loc ++ [s]) o) := by
  rcases h with rfl | h
  · exact .inr (.inl rfl)
  · exact .inr (.inr (by simpa using h))

theorem held_congr {loc : List PStep} {m m' : Registry} (h : m loc = m' loc) : Held loc m ↔ Held loc m' := by simp [Held, h]

/-! ## What is at a path, from a child on -/

/-- What is at a path that goes on with the keys and steps. -/
def nodeReg : Schema → Inst → List (Str × Str) → List PStep → Option XObj
  | .leaf _, .leaf v _, ks, r => if ks = [] ∧ r = [] then some (leafObj v) else none
  | .leafList _, .leafList _ _, ks, r => if ks = [] ∧ r = [] then some llObj else none
  | .cont _ kids', .cont _ _ ns', ks, r => if ks = [] then (if r = [] then some contObj else regAt r kids' ns') else none
  | .list info kids', .list _ es, ks, r =>
    match es.find? fun e => entryKeys info kids' e.1 = ks with
    | some (_, .cont _ _ ns') => if r = [] then some contObj else regAt r kids' ns'
    | _ => none
  | _, _, _, _ => none

theorem regAt_cons (s : PStep) (r : List PStep) (kids : List (Meta × Schema)) (ns : List Inst) :
    regAt (s :: r) kids ns = (kidNamed s.tag kids ns).bind fun k => nodeReg k.1 k.2 s.keys r := by
  generalize hk : kidNamed s.tag kids ns = x
  simp only [regAt, hk]
  cases x with
  | none => rfl
  | some k =>
    obtain ⟨S, n⟩ := k
    cases S <;> cases n <;> rfl

theorem kidNamed_none {t : Str} : ∀ {kids : List (Meta × Schema)} {ns : List Inst}, (∀ k ∈ kids, k.1.name ≠ t) → kidNamed t kids ns = none
  | [], _, _ => rfl
  | _ :: _, [], _ => rfl
  | k :: ks, n :: ns, h => by
    rw [kidNamed, if_neg (h k (by simp))]
    exact kidNamed_none fun k h' => h k (by simp [h'])

theorem kidNamed_get : ∀ {kids : List (Meta × Schema)} {ns : List Inst} {i : Nat} {k : Meta × Schema} {n : Inst},
    (kids.map fun k => k.1.name).Nodup → kids[i]? = some k → ns[i]? = some n → kidNamed k.1.name kids ns = some (k.2, n)
  | [], _, _, _, _, _, h, _ => by simp at h
  | _ :: _, [], _, _, _, _, _, h => by simp at h
  | k' :: ks, n' :: ns, 0, k, n, _, h1, h2 => by
    simp at h1 h2
    subst h1 h2
    simp [kidNamed]
  | k' :: ks, n' :: ns, i + 1, k, n, hn, h1, h2 => by
    simp at h1 h2 hn
    have hne : k'.1.name ≠ k.1.name := by
      intro e
      exact hn.1 _ _ (List.mem_of_getElem? h1) e.symm
    rw [kidNamed, if_neg hne]
    exact kidNamed_get hn.2 h1 h2

/-- What the registry has below a child is what is in the tree. -/
def KidAgree (loc : List PStep) (t : Str) (S : Schema) (n : Inst) (m : Registry) : Prop :=
  ∀ ks r, m (loc ++ ⟨t, ks⟩ :: r) = nodeReg S n ks r

/-- What the registry has below an object is what is in the tree. -/
def KidsAgree (loc : List PStep) (kids : List (Meta × Schema)) (ns : List Inst) (m : Registry) : Prop :=
  ∀ s r, m (loc ++ s :: r) = regAt (s :: r) kids ns

theorem kidsAgree_iff {loc : List PStep} {kids : List (Meta × Schema)} {ns : List Inst} {m : Registry}
    (hn : (kids.map fun k => k.1.name).Nodup) (hl : ns.length = kids.length) :
    KidsAgree loc kids ns m ↔ (∀ (i : Nat) k n, kids[i]? = some k → ns[i]? = some n → KidAgree loc k.1.name k.2 n m) ∧
      ∀ s r, (∀ k ∈ kids, k.1.name ≠ s.tag) → m (loc ++ s :: r) = none := by
  constructor
  · intro h
    refine ⟨fun i k n hk hi ks r => ?_, fun s r hs => ?_⟩
    · rw [h, regAt_cons]
      simp only []
      rw [kidNamed_get hn hk hi]
      rfl
    · rw [h, regAt_cons, kidNamed_none hs]
      rfl
  · rintro ⟨h1, h2⟩ s r
    rw [regAt_cons]
    by_cases hs : ∃ k ∈ kids, k.1.name = s.tag
    · obtain ⟨k, hk, he⟩ := hs
      obtain ⟨i, hi⟩ := List.getElem?_of_mem hk
      have hlt : i < ns.length := by rw [hl]; exact (List.getElem?_eq_some_iff.1 hi).1
      have hget : ns[i]? = some ns[i] := by simp [hlt]
      rw [← he, kidNamed_get hn hi hget]
      have := h1 i k _ hi hget s.keys r
      rw [he] at this
      exact this
    · have hs' : ∀ k ∈ kids, k.1.name ≠ s.tag := fun k hk e => hs ⟨k, hk, e⟩
      rw [h2 s r hs', kidNamed_none hs']
      rfl

/-! ## New objects -/

mutual
theorem regNew_below (loc : List PStep) (s : PStep) : ∀ (S : Schema), ∀ c ∈ regNew (loc ++ [s]) S, ∃ r o, c = .register (loc ++ s :: r) o
  | .leaf L, c, h => by simp [regNew] at h; exact ⟨[], _, h⟩
  | .leafList L, c, h => by simp [regNew] at h; exact ⟨[], _, h⟩
  | .cont pres kids, c, h => by
    simp only [regNew, List.mem_cons] at h
    rcases h with rfl | h
    · exact ⟨[], _, rfl⟩
    · obtain ⟨s', r, o, h, _⟩ := regKids_below (loc ++ [s]) kids c h
      exact ⟨s' :: r, o, by simpa using h⟩
  | .list info kids, c, h => by simp [regNew] at h
theorem regKids_below (loc : List PStep) : ∀ (kids : List (Meta × Schema)), ∀ c ∈ regKids loc kids,
    ∃ s r o, c = .register (loc ++ s :: r) o ∧ ∃ k ∈ kids, s = ⟨k.1.name, []⟩
  | [], c, h => by simp [regKids] at h
  | k :: ks, c, h => by
    simp only [regKids, List.mem_append] at h
    rcases h with h | h
    · obtain ⟨r, o, h⟩ := regNew_below loc ⟨k.1.name, []⟩ k.2 c h
      exact ⟨_, r, o, h, k, by simp, rfl⟩
    · obtain ⟨s, r, o, h, k', hk', e⟩ := regKids_below loc ks c h
      exact ⟨s, r, o, h, k', by simp [hk'], e⟩
end

theorem regNew_calls {loc : List PStep} {t : Str} {S : Schema} : ∀ c ∈ regNew (loc ++ [⟨t, []⟩]) S, Below loc t c.path := by
  intro c hc
  obtain ⟨r, o, rfl⟩ := regNew_below _ _ _ c hc
  exact ⟨_, r, rfl, rfl⟩

theorem regKids_off {loc : List PStep} {kids : List (Meta × Schema)} {m : Registry} {q : List PStep}
    (h : ∀ k ∈ kids, ¬ Below loc k.1.name q) : after m (regKids loc kids) q = m q := by
  induction kids generalizing m with
  | nil => rfl
  | cons k ks ih =>
    rw [regKids, after_append, ih (fun k h' => h k (by simp [h'])), after_off regNew_calls (h k (by simp))]

/-- What making an object leaves: it, and what was there before elsewhere. -/
def NewOk (loc : List PStep) (t : Str) (S : Schema) : Prop :=
  ∀ m, Held loc m → AllOk m (regNew (loc ++ [⟨t, []⟩]) S) ∧
    ∀ ks r, after m (regNew (loc ++ [⟨t, []⟩]) S) (loc ++ ⟨t, ks⟩ :: r) = (nodeReg S (fresh S) ks r).or (m (loc ++ ⟨t, ks⟩ :: r))

theorem regKids_ok {loc : List PStep} {kids : List (Meta × Schema)} (hn : (kids.map fun k => k.1.name).Nodup)
    (ih : ∀ k ∈ kids, NewOk loc k.1.name k.2) : ∀ m, Held loc m → AllOk m (regKids loc kids) ∧
      ∀ s r, after m (regKids loc kids) (loc ++ s :: r) = (regAt (s :: r) kids (freshKids kids)).or (m (loc ++ s :: r)) := by
  induction kids with
  | nil => intro m hm; exact ⟨trivial, fun s r => by simp [regKids, regAt_cons, kidNamed]⟩
  | cons k ks ihk =>
    intro m hm
    simp at hn
    obtain ⟨h1, h2⟩ := ih k (by simp) m hm
    have hloc : after m (regNew (loc ++ [⟨k.1.name, []⟩]) k.2) loc = m loc := after_off regNew_calls not_below_self
    obtain ⟨h3, h4⟩ := ihk hn.2 (fun k h => ih k (by simp [h])) (after m (regNew (loc ++ [⟨k.1.name, []⟩]) k.2)) ((held_congr hloc).2 hm)
    refine ⟨by rw [regKids, allOk_append]; exact ⟨h1, h3⟩, fun s r => ?_⟩
    rw [regKids, after_append]
    by_cases e : k.1.name = s.tag
    · rw [regKids_off]
      · rw [regAt_cons, freshKids, kidNamed, if_pos e]
        obtain ⟨t, ksx⟩ := s
        simp only at e
        subst e
        exact h2 ksx r
      · intro k' hk' hb
        have := below_unique hb ⟨s, r, rfl, rfl⟩
        exact hn.1 _ _ hk' (this.trans e.symm)
    · rw [h4, after_off regNew_calls (fun hb => e (below_unique hb ⟨s, r, rfl, rfl⟩)), regAt_cons, regAt_cons, freshKids, kidNamed, if_neg e]

/-- Making an object that can be found. -/
theorem newOk {S : Schema} (h : Addressable S) : ∀ (loc : List PStep) (t : Str), NewOk loc t S := by
  induction S using Schema.ind with
  | hleaf L =>
    intro loc t m hm
    refine ⟨⟨held_register hm _ _, trivial⟩, fun ks r => ?_⟩
    simp only [regNew, after_cons, after_nil, effect, fresh, nodeReg]
    by_cases e : ks = [] ∧ r = []
    · rw [if_pos e, if_pos (by rw [e.1, e.2])]
      rfl
    · rw [if_neg e, if_neg (by simpa using e)]
      rfl
  | hll L =>
    intro loc t m hm
    refine ⟨⟨held_register hm _ _, trivial⟩, fun ks r => ?_⟩
    simp only [regNew, after_cons, after_nil, effect, fresh, nodeReg]
    by_cases e : ks = [] ∧ r = []
    · rw [if_pos e, if_pos (by rw [e.1, e.2])]
      rfl
    · rw [if_neg e, if_neg (by simpa using e)]
      rfl
  | hcont pres kids ih =>
    intro loc t m hm
    cases h with
    | cont _ _ hok ha =>
    obtain ⟨h1, h2⟩ := regKids_ok (loc := loc ++ [⟨t, []⟩]) hok.nodup (fun k hk => ih k hk (ha k hk) _ _)
      (effect m (.register (loc ++ [⟨t, []⟩]) contObj)) (.inr (by simp [effect]))
    refine ⟨⟨held_register hm _ _, h1⟩, fun ks r => ?_⟩
    simp only [regNew, after_cons, fresh, nodeReg]
    by_cases e : ks = []
    · subst e
      cases r with
      | nil =>
        have e2 : loc ++ [(⟨t, []⟩ : PStep)] = loc ++ ⟨t, []⟩ :: [] := rfl
        rw [regKids_off (fun k _ => not_below_self)]
        simp [effect]
      | cons s r =>
        have := h2 s r
        simp only [List.append_assoc, List.singleton_append] at this
        rw [if_pos rfl, if_neg (by simp), this]
        congr 1
        simp [effect]
    · rw [if_neg e, regKids_off]
      · simp only [effect]
        rw [if_neg (by intro h; simp at h; exact e h.1)]
        rfl
      · rintro k _ ⟨s, r', hb, _⟩
        simp at hb
        exact e hb.1
  | hlist info kids ih =>
    intro loc t m hm
    refine ⟨trivial, fun ks r => ?_⟩
    simp [regNew, fresh, nodeReg]

/-! ## The paths of the calls -/

/-- A data path that goes on with the keys and steps. -/
def childPath : Schema → List (Str × Str) → List PStep → Prop
  | .leaf _, ks, r => ks = [] ∧ r = []
  | .leafList _, ks, r => ks = [] ∧ r = []
  | .cont _ kids', ks, r => ks = [] ∧ PathOk r kids'
  | .list info kids', ks, r => ks.map (·.1) = entryKeyNames info kids' ∧ (∀ x ∈ ks, KeyText x.2) ∧ PathOk r kids'

theorem pathOk_cons (s : PStep) (r : List PStep) (kids : List (Meta × Schema)) :
    PathOk (s :: r) kids ↔ ∃ k ∈ kids, k.1.name = s.tag ∧ childPath k.2 s.keys r := by
  simp only [PathOk]
  constructor
  · rintro ⟨k, hk, h1, h2⟩
    refine ⟨k, hk, h1, ?_⟩
    obtain ⟨a, S⟩ := k
    cases S <;> exact h2
  · rintro ⟨k, hk, h1, h2⟩
    refine ⟨k, hk, h1, ?_⟩
    obtain ⟨a, S⟩ := k
    cases S <;> exact h2

/-- The calls are at paths of the child. -/
def CallsIn (loc : List PStep) (t : Str) (S : Schema) (cs : List RegOp) : Prop :=
  ∀ c ∈ cs, ∃ ks r, c.path = loc ++ ⟨t, ks⟩ :: r ∧ childPath S ks r

/-- The calls are at paths below the object. -/
def CallsUnder (loc : List PStep) (kids : List (Meta × Schema)) (cs : List RegOp) : Prop :=
  ∀ c ∈ cs, ∃ s r, c.path = loc ++ s :: r ∧ PathOk (s :: r) kids

theorem CallsIn.below {loc : List PStep} {t : Str} {S : Schema} {cs : List RegOp} (h : CallsIn loc t S cs) : ∀ c ∈ cs, Below loc t c.path := by
  intro c hc
  obtain ⟨ks, r, h, _⟩ := h c hc
  exact ⟨_, r, h, rfl⟩

theorem CallsIn.under {loc : List PStep} {kids : List (Meta × Schema)} {k : Meta × Schema} {cs : List RegOp} (hk : k ∈ kids)
    (h : CallsIn loc k.1.name k.2 cs) : CallsUnder loc kids cs := by
  intro c hc
  obtain ⟨ks, r, h, hp⟩ := h c hc
  exact ⟨_, r, h, (pathOk_cons _ _ _).2 ⟨k, hk, rfl, hp⟩⟩

theorem callsUnder_append {loc : List PStep} {kids : List (Meta × Schema)} {a b : List RegOp} (ha : CallsUnder loc kids a) (hb : CallsUnder loc kids b) :
    CallsUnder loc kids (a ++ b) := by
  intro c hc
  rcases List.mem_append.1 hc with h | h
  · exact ha c h
  · exact hb c h

theorem callsUnder_nil (loc : List PStep) (kids : List (Meta × Schema)) : CallsUnder loc kids [] := by
  intro c hc; simp at hc

/-- The calls below an object, seen from above. -/
theorem callsIn_cont {loc : List PStep} {t : Str} {pres : Bool} {kids : List (Meta × Schema)} {cs : List RegOp}
    (h : CallsUnder (loc ++ [⟨t, []⟩]) kids cs) : CallsIn loc t (.cont pres kids) cs := by
  intro c hc
  obtain ⟨s, r, h, hp⟩ := h c hc
  exact ⟨[], s :: r, by simpa using h, rfl, hp⟩

mutual
theorem regNew_paths (loc : List PStep) (t : Str) : ∀ (S : Schema), CallsIn loc t S (regNew (loc ++ [⟨t, []⟩]) S)
  | .leaf L, c, h => by simp [regNew] at h; subst h; exact ⟨[], [], rfl, rfl, rfl⟩
  | .leafList L, c, h => by simp [regNew] at h; subst h; exact ⟨[], [], rfl, rfl, rfl⟩
  | .cont pres kids, c, h => by
    simp only [regNew, List.mem_cons] at h
    rcases h with rfl | h
    · exact ⟨[], [], rfl, rfl, trivial⟩
    · exact callsIn_cont (regKids_paths (loc ++ [⟨t, []⟩]) kids) c h
  | .list info kids, c, h => by simp [regNew] at h
theorem regKids_paths (loc : List PStep) : ∀ (kids : List (Meta × Schema)), CallsUnder loc kids (regKids loc kids)
  | [], c, h => by simp [regKids] at h
  | k :: ks, c, h => by
    simp only [regKids, List.mem_append] at h
    rcases h with h | h
    · exact CallsIn.under (by simp) (regNew_paths loc k.1.name k.2) c h
    · obtain ⟨s, r, h, hp⟩ := regKids_paths loc ks c h
      refine ⟨s, r, h, ?_⟩
      rw [pathOk_cons] at hp ⊢
      obtain ⟨k', hk', hp⟩ := hp
      exact ⟨k', by simp [hk'], hp⟩
end

/-! ## The shape of the tree -/

/-- The tree has the shape of its class; the keys of a list's entries are from `K`, have texts
that can be used, and differ from each other. -/
inductive RegTree (K : PyVal → Prop) : Schema → Inst → Prop where
  | leaf (L v ch) : RegTree K (.leaf L) (.leaf v ch)
  | leafList (L vs ch) : RegTree K (.leafList L) (.leafList vs ch)
  | cont (pres kids ch pr ns) : ns.length = kids.length →
      (∀ (i : Nat) k n, kids[i]? = some k → ns[i]? = some n → RegTree K k.2 n) → RegTree K (.cont pres kids) (.cont ch pr ns)
  | list (info kids ch es) : (∀ q ∈ es, K q.1 ∧ (entryTexts info.keys.length q.1).length = info.keys.length ∧
        ∀ v ∈ entryTexts info.keys.length q.1, KeyText v) →
      es.Pairwise (fun a b => entryKeys info kids a.1 ≠ entryKeys info kids b.1) →
      (∀ q ∈ es, RegTree K (.cont false kids) q.2) → RegTree K (.list info kids) (.list ch es)

theorem regTree_fresh {K : PyVal → Prop} (S : Schema) : RegTree K S (fresh S) := by
  induction S using Schema.ind with
  | hleaf L => exact .leaf ..
  | hll L => exact .leafList ..
  | hcont pres kids ih =>
    refine .cont _ _ _ _ _ (freshKids_length _) fun i k n hk hn => ?_
    rw [freshKids_get, hk] at hn
    simp at hn
    subst hn
    exact ih k (List.mem_of_getElem? hk)
  | hlist info kids ih => exact .list _ _ _ _ (by simp) (by simp) (by simp)

/-- Without lists, where things are depends on the class only. -/
theorem noLists_same {K : PyVal → Prop} {S : Schema} (hS : NoLists S) (ha : Addressable S) : ∀ {n n' : Inst}, RegTree K S n → RegTree K S n' →
    ∀ ks r, (nodeReg S n ks r).isSome = (nodeReg S n' ks r).isSome := by
  induction S using Schema.ind with
  | hleaf L => intro n n' h h' ks r; cases h; cases h'; simp only [nodeReg]; split <;> rfl
  | hll L => intro n n' h h' ks r; cases h; cases h'; simp only [nodeReg]
  | hcont pres kids ih =>
    intro n n' h h' ks r
    cases hS with
    | cont _ _ hS =>
    cases ha with
    | cont _ _ hok ha =>
    cases h with
    | cont _ _ ch pr ns hl h =>
    cases h' with
    | cont _ _ ch' pr' ns' hl' h' =>
    simp only [nodeReg]
    split
    · split
      · rfl
      · cases r with
        | nil => contradiction
        | cons s r =>
          rw [regAt_cons, regAt_cons]
          by_cases hs : ∃ k ∈ kids, k.1.name = s.tag
          · obtain ⟨k, hk, he⟩ := hs
            obtain ⟨i, hi⟩ := List.getElem?_of_mem hk
            have hlt := (List.getElem?_eq_some_iff.1 hi).1
            have h1 : ns[i]? = some (ns[i]'(by omega)) := by simp [hl, hlt]
            have h2 : ns'[i]? = some (ns'[i]'(by omega)) := by simp [hl', hlt]
            rw [← he, kidNamed_get hok.nodup hi h1, kidNamed_get hok.nodup hi h2]
            exact ih k hk (hS k hk) (ha k hk) (h i k _ hi h1) (h' i k _ hi h2) _ _
          · have hs' : ∀ k ∈ kids, k.1.name ≠ s.tag := fun k hk e => hs ⟨k, hk, e⟩
            rw [kidNamed_none hs', kidNamed_none hs']
    · rfl
  | hlist info kids ih => cases hS

/-- Making an object again in the place of one without lists. -/
theorem regNew_agree {K : PyVal → Prop} {S : Schema} (hS : NoLists S) (ha : Addressable S) {loc : List PStep} {t : Str} {n : Inst} {m : Registry}
    (ht : RegTree K S n) (hm : Held loc m) (h : KidAgree loc t S n m) :
    AllOk m (regNew (loc ++ [⟨t, []⟩]) S) ∧ KidAgree loc t S (fresh S) (after m (regNew (loc ++ [⟨t, []⟩]) S)) := by
  obtain ⟨h1, h2⟩ := newOk ha loc t m hm
  refine ⟨h1, fun ks r => ?_⟩
  rw [h2]
  have hsame := noLists_same hS ha ht (regTree_fresh S) ks r
  rw [h ks r]
  cases hf : nodeReg S (fresh S) ks r with
  | some o => rfl
  | none =>
    rw [hf] at hsame
    cases hn : nodeReg S n ks r with
    | none => rfl
    | some o => rw [hn] at hsame; simp at hsame

end Pyb
