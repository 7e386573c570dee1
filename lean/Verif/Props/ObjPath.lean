import Verif.Model.ObjPath
import Verif.Spec.ObjPath
import Verif.Props.Reg

/-! # C108: the paths objects report -/

namespace Pyb
open Py Spec

def untilBracket (t : Str) : Str := t.takeWhile (· ≠ '[')

theorem untilBracket_name {t : Str} (h : '[' ∉ t) (r : Str) : untilBracket (t ++ '[' :: r) = t := by
  induction t with
  | nil => simp [untilBracket]
  | cons c t ih =>
    simp only [List.mem_cons, not_or] at h
    have := ih h.2
    unfold untilBracket at this ⊢
    rw [List.cons_append, List.takeWhile_cons_of_pos (by simpa using fun e => h.1 e.symm), this]

theorem untilBracket_self {t : Str} (h : '[' ∉ t) : untilBracket t = t := by
  induction t with
  | nil => rfl
  | cons c t ih =>
    simp only [List.mem_cons, not_or] at h
    have := ih h.2
    unfold untilBracket at this ⊢
    rw [List.takeWhile_cons_of_pos (by simpa using fun e => h.1 e.symm), this]

theorem entry_tag {name : Str} (h : '[' ∉ name) (info : ListInfo) (kids : List (Meta × Schema)) (k : PyVal) :
    untilBracket (entryStep name info kids k).text = name := by
  unfold PStep.text
  split
  · exact untilBracket_self h
  · exact untilBracket_name h _

theorem text_keys {s : PStep} (h : s.keys ≠ []) : s.text = s.tag ++ keyString s.keys := if_neg h

theorem keyText_end : ∀ {ks : List (Str × Str)}, ks ≠ [] → ∃ t, keyText ks = t ++ [' ']
  | [p], _ => ⟨p.1 ++ py!"='" ++ p.2 ++ py!"'", by simp [keyText]⟩
  | p :: q :: ks, _ => by
    obtain ⟨t, e⟩ := keyText_end (ks := q :: ks) (by simp)
    refine ⟨p.1 ++ py!"='" ++ p.2 ++ py!"' " ++ t, ?_⟩
    rw [keyText, e]; simp

theorem no_space {v w r s : Str} (hv : ' ' ∉ v) (hw : ' ' ∉ w) (h : v ++ py!"' " ++ r = w ++ py!"' " ++ s) : v = w ∧ r = s := by
  have e : ∀ {v r : Str}, ' ' ∉ v → (v ++ py!"' " ++ r).takeWhile (· ≠ ' ') = v ++ ['\''] := by
    intro v r hv
    induction v with
    | nil => simp
    | cons c v ih =>
      simp only [List.mem_cons, not_or] at hv
      have := ih hv.2
      rw [List.cons_append, List.cons_append, List.takeWhile_cons_of_pos (by simpa using fun e => hv.1 e.symm), this]
      rfl
  have h1 : v ++ ['\''] = w ++ ['\''] := by rw [← e hv (r := r), h, e hw]
  have h2 : v = w := List.append_cancel_right h1
  subst h2
  exact ⟨rfl, List.append_cancel_left h⟩

theorem keyText_inj : ∀ {ns t u : List Str}, t.length = ns.length → u.length = ns.length → (ns.length = 1 ∨ ((∀ v ∈ t, ' ' ∉ v) ∧ ∀ v ∈ u, ' ' ∉ v)) →
    keyText (ns.zip t) = keyText (ns.zip u) → t = u
  | [], [], [], _, _, _, _ => rfl
  | n :: ns, a :: t, b :: u, h1, h2, h3, h => by
    simp only [List.zip_cons_cons, keyText, List.append_assoc] at h
    have h := List.append_cancel_left (List.append_cancel_left h)
    simp only [← List.append_assoc] at h
    rcases h3 with h3 | h3
    · have e : ns = [] := by simpa using h3
      subst e
      have e1 : t = [] := by simpa using h1
      have e2 : u = [] := by simpa using h2
      subst e1; subst e2
      simp only [List.zip_nil_right, keyText, List.append_nil] at h
      rw [List.append_cancel_right h]
    · obtain ⟨e1, e2⟩ := no_space (h3.1 a (by simp)) (h3.2 b (by simp)) h
      rw [e1, keyText_inj (by simpa using h1) (by simpa using h2) (.inr ⟨fun v hv => h3.1 v (by simp [hv]), fun v hv => h3.2 v (by simp [hv])⟩) e2]

theorem splitOn_without (c : Char) : ∀ (s : Str), ∀ v ∈ splitOn c s, c ∉ v
  | [], v, h => by
    have : v = [] := by simpa [splitOn] using h
    simp [this]
  | d :: s, v, h => by
    have ih := splitOn_without c s
    unfold splitOn at h
    split at h
    · rcases List.mem_cons.1 h with rfl | h
      · simp
      · exact ih v h
    · rename_i hd
      split at h
      · have : v = [d] := by simpa using h
        simp [this, Ne.symm hd]
      · rename_i p ps e
        rw [e] at ih
        rcases List.mem_cons.1 h with rfl | h
        · simp only [List.mem_cons, not_or]
          exact ⟨Ne.symm hd, ih p (by simp)⟩
        · exact ih v (by simp [h])

theorem entry_inj {name : Str} {info : ListInfo} {kids : List (Meta × Schema)} (hk : info.keys ≠ []) {a b : PyVal}
    (ha : (entryTexts info.keys.length a).length = info.keys.length) (hb : (entryTexts info.keys.length b).length = info.keys.length)
    (h : (entryStep name info kids a).text = (entryStep name info kids b).text) : entryTexts info.keys.length a = entryTexts info.keys.length b := by
  have hl : (entryKeyNames info kids).length = info.keys.length := by simp [entryKeyNames]
  have ne : ∀ {t : List Str}, t.length = info.keys.length → (entryKeyNames info kids).zip t ≠ [] := by
    intro t ht e
    have : ((entryKeyNames info kids).zip t).length = 0 := by rw [e]; rfl
    rw [List.length_zip, hl, ht, Nat.min_self] at this
    exact hk (List.length_eq_zero_iff.1 this)
  rw [text_keys (s := entryStep name info kids a) (ne ha), text_keys (s := entryStep name info kids b) (ne hb)] at h
  simp only [entryStep, keyString] at h
  have h := List.append_cancel_left h
  simp only [List.cons_append, List.cons.injEq, true_and] at h
  have h := List.append_cancel_right h
  obtain ⟨t, ht⟩ := keyText_end (ne ha)
  obtain ⟨u, hu⟩ := keyText_end (ne hb)
  rw [ht, hu, List.dropLast_concat, List.dropLast_concat] at h
  refine keyText_inj (ns := entryKeyNames info kids) (by rw [ha, hl]) (by rw [hb, hl]) ?_ (by rw [ht, hu, h])
  rw [hl]
  by_cases h1 : info.keys.length = 1
  · exact .inl h1
  · right
    simp only [entryTexts, if_neg h1]
    exact ⟨splitOn_without ' ' _, splitOn_without ' ' _⟩

theorem entry_bracket {name : Str} {info : ListInfo} {kids : List (Meta × Schema)} (hk : info.keys ≠ []) {a : PyVal}
    (ha : (entryTexts info.keys.length a).length = info.keys.length) : '[' ∈ (entryStep name info kids a).text := by
  have hl : (entryKeyNames info kids).length = info.keys.length := by simp [entryKeyNames]
  have ne : (entryKeyNames info kids).zip (entryTexts info.keys.length a) ≠ [] := by
    intro e
    have : ((entryKeyNames info kids).zip (entryTexts info.keys.length a)).length = 0 := by rw [e]; rfl
    rw [List.length_zip, hl, ha, Nat.min_self] at this
    exact hk (List.length_eq_zero_iff.1 this)
  simp [PStep.text, entryStep, ne, keyString]

mutual
theorem pathsNode_under (up : List Str) (m : Meta) : (S : Schema) → (n : Inst) → ∀ x ∈ pathsNode up m S n,
    ∃ t r, x = up ++ t :: r ∧ ('[' ∉ m.name → untilBracket t = m.name)
  | .cont _ kids, .cont _ _ ns, x, h => by
    rw [pathsNode] at h
    rcases List.mem_cons.1 h with rfl | h
    · exact ⟨_, _, rfl, untilBracket_self⟩
    · obtain ⟨t, r, e, _⟩ := pathsKids_under _ kids ns x h
      exact ⟨m.name, t :: r, by rw [e]; simp, untilBracket_self⟩
  | .list info kids, .list _ es, x, h => by
    rw [pathsNode] at h
    rcases List.mem_cons.1 h with rfl | h
    · exact ⟨_, _, rfl, untilBracket_self⟩
    · obtain ⟨e, _, h⟩ := List.mem_flatMap.1 h
      rcases List.mem_cons.1 h with rfl | h
      · exact ⟨_, _, rfl, fun hm => entry_tag hm ..⟩
      · obtain ⟨t, r, e', _⟩ := pathsKids_under _ kids e.2.kids x h
        exact ⟨(entryStep m.name info kids e.1).text, t :: r, by rw [e']; simp, fun hm => entry_tag hm ..⟩
  | .leaf _, n, x, h => by
    have : x = up ++ [m.name] := by simpa [pathsNode] using h
    exact ⟨_, _, this, untilBracket_self⟩
  | .leafList _, n, x, h => by
    have : x = up ++ [m.name] := by simpa [pathsNode] using h
    exact ⟨_, _, this, untilBracket_self⟩
  | .cont _ _, .leaf _ _, x, h => ⟨_, _, by simpa [pathsNode] using h, untilBracket_self⟩
  | .cont _ _, .leafList _ _, x, h => ⟨_, _, by simpa [pathsNode] using h, untilBracket_self⟩
  | .cont _ _, .list _ _, x, h => ⟨_, _, by simpa [pathsNode] using h, untilBracket_self⟩
  | .list _ _, .leaf _ _, x, h => ⟨_, _, by simpa [pathsNode] using h, untilBracket_self⟩
  | .list _ _, .leafList _ _, x, h => ⟨_, _, by simpa [pathsNode] using h, untilBracket_self⟩
  | .list _ _, .cont _ _ _, x, h => ⟨_, _, by simpa [pathsNode] using h, untilBracket_self⟩
theorem pathsKids_under (up : List Str) : (kids : List (Meta × Schema)) → (ns : List Inst) → ∀ x ∈ pathsKids up kids ns,
    ∃ t r, x = up ++ t :: r ∧ ((∀ k ∈ kids, '[' ∉ k.1.name) → untilBracket t ∈ kids.map fun k => k.1.name)
  | [], _, x, h => by simp [pathsKids] at h
  | _ :: _, [], x, h => by simp [pathsKids] at h
  | k :: ks, n :: ns, x, h => by
    rw [pathsKids] at h
    rcases List.mem_append.1 h with h | h
    · obtain ⟨t, r, e, h'⟩ := pathsNode_under up k.1 k.2 n x h
      exact ⟨t, r, e, fun hk => by rw [h' (hk k (by simp))]; simp⟩
    · obtain ⟨t, r, e, h'⟩ := pathsKids_under up ks ns x h
      exact ⟨t, r, e, fun hk => List.mem_cons_of_mem _ (h' fun k h => hk k (by simp [h]))⟩
end

theorem under_ne {up : List Str} {a : Str} (kids : List (Meta × Schema)) (ns : List Inst) : up ++ [a] ∉ pathsKids (up ++ [a]) kids ns := by
  intro h
  obtain ⟨t, r, e, _⟩ := pathsKids_under _ kids ns _ h
  have := congrArg List.length e
  simp only [List.length_append, List.length_cons, List.length_nil] at this
  omega

theorem step_of {up : List Str} {a b : Str} {r s : List Str} (h : up ++ a :: r = up ++ b :: s) : a = b ∧ r = s := by
  have := List.append_cancel_left h
  simpa using this

theorem block_under {up : List Str} {a : Str} (kids : List (Meta × Schema)) (ns : List Inst) {x : List Str} (h : x ∈ (up ++ [a]) :: pathsKids (up ++ [a]) kids ns) :
    ∃ r, x = up ++ a :: r := by
  rcases List.mem_cons.1 h with rfl | h
  · exact ⟨[], rfl⟩
  · obtain ⟨t, r, e, _⟩ := pathsKids_under _ kids ns _ h
    exact ⟨t :: r, by rw [e]; simp⟩

mutual
theorem pathsNode_nodup (up : List Str) (m : Meta) (hm : '[' ∉ m.name) : (S : Schema) → (n : Inst) → Every PathReady m S n → (pathsNode up m S n).Nodup
  | .cont _ kids, .cont _ _ ns, h => by
    rw [Every] at h
    rw [pathsNode, List.nodup_cons]
    exact ⟨under_ne _ _, pathsKids_nodup _ kids ns h.1 h.2⟩
  | .list info kids, .list _ es, h => by
    rw [Every] at h
    obtain ⟨⟨h1, h2, h3, h4⟩, h5⟩ := h
    rw [pathsNode, List.nodup_cons]
    constructor
    · intro hx
      obtain ⟨e, he, hx⟩ := List.mem_flatMap.1 hx
      obtain ⟨r, hr⟩ := block_under _ _ hx
      have := (step_of hr).1
      exact hm (this ▸ entry_bracket h2 (h3 e he))
    · have gen : ∀ es' : List (PyVal × Inst), (∀ e ∈ es', e ∈ es) → (es'.map fun e => entryTexts info.keys.length e.1).Nodup →
          (es'.flatMap fun e => (up ++ [(entryStep m.name info kids e.1).text]) :: pathsKids (up ++ [(entryStep m.name info kids e.1).text]) kids e.2.kids).Nodup := by
        intro es'
        induction es' with
        | nil => intro _ _; simp
        | cons e es' ih =>
          intro hs hn
          rw [List.map_cons, List.nodup_cons] at hn
          rw [List.flatMap_cons, List.nodup_append]
          refine ⟨List.nodup_cons.2 ⟨under_ne _ _, pathsKids_nodup _ kids e.2.kids h1 (h5 e (hs e (by simp)))⟩, ih (fun e h => hs e (by simp [h])) hn.2, ?_⟩
          intro x hx y hy hxy
          subst hxy
          obtain ⟨e', he', hy⟩ := List.mem_flatMap.1 hy
          obtain ⟨r, hr⟩ := block_under _ _ hx
          obtain ⟨s, hs'⟩ := block_under _ _ hy
          have := (step_of (hr.symm.trans hs')).1
          exact hn.1 (List.mem_map.2 ⟨e', he', (entry_inj h2 (h3 e (hs e (by simp))) (h3 e' (hs e' (by simp [he']))) this).symm⟩)
      exact gen es (fun _ h => h) h4
  | .leaf _, n, _ => by simp [pathsNode]
  | .leafList _, n, _ => by simp [pathsNode]
  | .cont _ _, .leaf _ _, _ => by simp [pathsNode]
  | .cont _ _, .leafList _ _, _ => by simp [pathsNode]
  | .cont _ _, .list _ _, _ => by simp [pathsNode]
  | .list _ _, .leaf _ _, _ => by simp [pathsNode]
  | .list _ _, .leafList _ _, _ => by simp [pathsNode]
  | .list _ _, .cont _ _ _, _ => by simp [pathsNode]
theorem pathsKids_nodup (up : List Str) : (kids : List (Meta × Schema)) → (ns : List Inst) → PathNames kids → EveryKids PathReady kids ns → (pathsKids up kids ns).Nodup
  | [], _, _, _ => by simp [pathsKids]
  | _ :: _, [], _, _ => by simp [pathsKids]
  | k :: ks, n :: ns, hn, h => by
    rw [EveryKids] at h
    obtain ⟨h1, h2⟩ := hn
    rw [List.map_cons, List.nodup_cons] at h2
    rw [pathsKids, List.nodup_append]
    refine ⟨pathsNode_nodup up k.1 (h1 k (by simp)) k.2 n h.1, pathsKids_nodup up ks ns ⟨fun k h => h1 k (by simp [h]), h2.2⟩ h.2, ?_⟩
    intro x hx y hy hxy
    subst hxy
    obtain ⟨t, r, e, ht⟩ := pathsNode_under up k.1 k.2 n x hx
    obtain ⟨t', r', e', ht'⟩ := pathsKids_under up ks ns x hy
    have := (step_of (e.symm.trans e')).1
    subst this
    have h3 := ht' fun k h => h1 k (by simp [h])
    rw [ht (h1 k (by simp))] at h3
    exact h2.1 h3
end

/-- C108, in part: no two objects of a tree report the same `_path()`, if siblings have different names
and no two entries of a list have keys with the same texts.  Missing: lists without key, keys with
the same text. -/
theorem C108_distinct_partial (kids : List (Meta × Schema)) (hn : PathNames kids) (ns : List Inst) (h : EveryKids PathReady kids ns) :
    (pathsKids [] kids ns).Nodup := pathsKids_nodup [] kids ns hn h

theorem join_slash : ∀ p : List Str, join py!"/" p = joinSlash p
  | [] => rfl
  | [_] => rfl
  | s :: t :: r => by rw [join, joinSlash, join_slash (t :: r)]; simp

theorem yangPath_parts {p : List PStep} (h : ∀ s ∈ p, s.Good) (hne : p ≠ []) : pathParts (yangPath (p.map PStep.text)).tail = p.map PStep.text := by
  rw [yangPath, List.tail_cons, join_slash]
  cases p with
  | nil => exact absurd rfl hne
  | cons s p => rw [pathParts, go_texts p [] s h]; rfl

/-- C108 for `_yang_path()`: it is different for different objects if moreover the names and key values
are such as the path helper can take. -/
theorem C108_yang_path_partial (kids : List (Meta × Schema)) (hn : PathNames kids) (ns : List Inst) (h : EveryKids PathReady kids ns)
    (hg : ∀ x ∈ pathsKids [] kids ns, ∃ p : List PStep, (∀ s ∈ p, s.Good) ∧ x = p.map PStep.text) : ((pathsKids [] kids ns).map yangPath).Nodup := by
  have nd := C108_distinct_partial kids hn ns h
  have ne : ∀ x ∈ pathsKids [] kids ns, x ≠ [] := by
    intro x hx e
    obtain ⟨t, r, e', _⟩ := pathsKids_under [] kids ns x hx
    rw [e] at e'; simp at e'
  refine List.pairwise_map.2 (List.Pairwise.imp_of_mem ?_ nd)
  intro x y hx hy hxy e
  obtain ⟨p, hp, rfl⟩ := hg x hx
  obtain ⟨q, hq, rfl⟩ := hg y hy
  have hp' : p ≠ [] := fun e => ne _ hx (by rw [e]; rfl)
  have hq' : q ≠ [] := fun e => ne _ hy (by rw [e]; rfl)
  exact hxy (by rw [← yangPath_parts hp hp', e, yangPath_parts hq hq'])

/-- C108 is false for lists without key: all the entries report the path of the list. -/
theorem C108_keyless_refuted (up : List Str) (m : Meta) (info : ListInfo) (hk : info.keys = []) (kids : List (Meta × Schema)) (ch : Bool)
    (e : PyVal × Inst) (es : List (PyVal × Inst)) : ¬ (pathsNode up m (.list info kids) (.list ch (e :: es))).Nodup := by
  have ht : (entryStep m.name info kids e.1).text = m.name := by simp [entryStep, entryKeyNames, hk, PStep.text]
  rw [pathsNode, List.nodup_cons, List.flatMap_cons, ht]
  intro h
  exact h.1 (by simp)

/-- C108 is false for entries whose keys have the same text, as those of `add(1)` and `add("1")`. -/
theorem C108_same_text_refuted (up : List Str) (m : Meta) (info : ListInfo) (kids : List (Meta × Schema)) (ch : Bool) (a b : PyVal × Inst)
    (h : entryTexts info.keys.length a.1 = entryTexts info.keys.length b.1) : ¬ (pathsNode up m (.list info kids) (.list ch [a, b])).Nodup := by
  have ht : (entryStep m.name info kids a.1).text = (entryStep m.name info kids b.1).text := by rw [entryStep, entryStep, h]
  rw [pathsNode, List.nodup_cons, List.flatMap_cons, List.flatMap_cons, ht, List.nodup_append]
  rintro ⟨_, _, _, h⟩
  exact h _ (List.mem_cons_self ..) _ (by simp) rfl

theorem keyString_one (k v : Str) : keyString [(k, v)] = '[' :: k ++ py!"='" ++ v ++ py!"']" := by
  have e : keyText [(k, v)] = (k ++ py!"='" ++ v ++ ['\'']) ++ [' '] := by simp [keyText]
  rw [keyString, e, List.dropLast_concat]
  simp

/-- C108 is false for `_yang_path()` with quotes in key values: an entry `b` in an entry `a` has the one
of another entry `a`. -/
theorem C108_yang_path_refuted (up : List Str) (a k v b l w : Str) :
    yangPath (up ++ [(⟨a, [(k, v)]⟩ : PStep).text, (⟨b, [(l, w)]⟩ : PStep).text]) =
      yangPath (up ++ [(⟨a, [(k, v ++ py!"']/" ++ b ++ py!"[" ++ l ++ py!"='" ++ w)]⟩ : PStep).text]) := by
  have e : ∀ (up : List Str) (s t : Str), join py!"/" (up ++ [s, t]) = join py!"/" (up ++ [s ++ '/' :: t]) := by
    intro up s t
    induction up with
    | nil => simp [join]
    | cons u up ih =>
      cases up with
      | nil => simp [join]
      | cons u' up => simp only [List.cons_append, join] at ih ⊢; rw [ih]
  have e' : (⟨a, [(k, v)]⟩ : PStep).text ++ '/' :: (⟨b, [(l, w)]⟩ : PStep).text =
      (⟨a, [(k, v ++ py!"']/" ++ b ++ py!"[" ++ l ++ py!"='" ++ w)]⟩ : PStep).text := by
    rw [text_keys (by simp), text_keys (by simp), text_keys (by simp)]
    simp only [keyString_one]
    simp
  rw [yangPath, yangPath, e, e']

/-! Examples: the module and history of `Props/Reg`. -/

set_option maxRecDepth 4000 in
example : pathsKids [] demoM (history demoM (freshKids demoM) [([.field 0, .field 4], .add (.str py!"e1"))]) =
    [[py!"c"], [py!"c", py!"a"], [py!"c", py!"b"], [py!"c", py!"x"], [py!"c", py!"p"], [py!"c", py!"p", py!"y"], [py!"c", py!"l"],
     [py!"c", py!"l[k='e1']"], [py!"c", py!"l[k='e1']", py!"k"], [py!"c", py!"l[k='e1']", py!"z"], [py!"c", py!"v"], [py!"w"]] := by decide

def pathTree : List Inst :=
  [.cont true false [.leaf (.str []) false, .leaf (.str []) false, .leaf (.str []) false, .cont false false [.leaf (.str []) false],
    .list false [(.str py!"e1", .cont true false [.leaf (.str py!"e1") true, .leaf (.str []) false]),
      (.str py!"e2", .cont true false [.leaf (.str py!"e2") true, .leaf (.str []) false])], .leafList [] false], .leafList [] false]

example : history demoM (freshKids demoM) [([.field 0, .field 4], .add (.str py!"e1")), ([.field 0, .field 4], .add (.str py!"e2"))] = pathTree := rfl

example : PathNames demoM ∧ EveryKids PathReady demoM pathTree := by
  refine ⟨⟨by decide, by decide⟩, ?_⟩
  simp only [demoM, demoC, demoL, pathTree, EveryKids, Every, PathReady, and_true, true_and, List.mem_cons, List.not_mem_nil, or_false,
    forall_eq_or_imp, forall_eq, Inst.kids]
  refine ⟨⟨by decide, by decide⟩, ⟨by decide, by decide⟩, ⟨by decide, by decide⟩, by decide, by decide, by decide⟩

example : entryTexts 1 (.int 1) = entryTexts 1 (.str py!"1") := by decide

end Pyb
