import Verif.Py.Str

/-! # Python dictionaries with `str` keys

A `dict` keeps insertion order, so it is an association list without repeated keys. -/

namespace Py

abbrev Dict (α : Type) := List (Str × α)

namespace Dict

/-- `d.get(k)`. -/
def get? (d : Dict α) (k : Str) : Option α := List.lookup k d

/-- `d[k] = v`. -/
def set : Dict α → Str → α → Dict α
  | [], k, v => [(k, v)]
  | p :: d, k, v => if p.1 = k then (p.1, v) :: d else p :: set d k v

/-- `k in d`. -/
def has (d : Dict α) (k : Str) : Bool := (d.get? k).isSome

@[simp] theorem get?_nil (k : Str) : Dict.get? ([] : Dict α) k = none := rfl

theorem get?_cons (p : Str × α) (d : Dict α) (k : Str) :
    Dict.get? (p :: d) k = if p.1 = k then some p.2 else Dict.get? d k := by
  obtain ⟨a, b⟩ := p
  simp only [get?, List.lookup]
  by_cases h : a = k
  · subst h; simp
  · have : (k == a) = false := by simpa using fun e => h e.symm
    simp [this, h]

theorem get?_set (d : Dict α) (k : Str) (v : α) (j : Str) :
    (d.set k v).get? j = if j = k then some v else d.get? j := by
  induction d with
  | nil =>
    simp only [set, get?_cons, get?_nil]
    by_cases h : j = k
    · simp [h]
    · have : k ≠ j := fun e => h e.symm
      simp [h, this]
  | cons p d ih =>
    simp only [set]
    by_cases hp : p.1 = k
    · simp only [hp, if_true, get?_cons]
      by_cases h : j = k
      · simp [h]
      · have : k ≠ j := fun e => h e.symm
        simp [h, this]
    · simp only [hp, if_false, get?_cons, ih]
      by_cases h : p.1 = j
      · have : j ≠ k := fun e => hp (h.trans e)
        simp [h, this]
      · simp [h]

theorem get?_set_self (d : Dict α) (k : Str) (v : α) : (d.set k v).get? k = some v := by simp [get?_set]

theorem has_set (d : Dict α) (k : Str) (v : α) (j : Str) : (d.set k v).has j = (decide (j = k) || d.has j) := by
  simp only [has, get?_set]
  by_cases h : j = k <;> simp [h]

theorem keys_set (d : Dict α) (k : Str) (v : α) :
    (d.set k v).map (·.1) = if k ∈ d.map (·.1) then d.map (·.1) else d.map (·.1) ++ [k] := by
  induction d with
  | nil => simp [set]
  | cons p d ih =>
    simp only [set]
    by_cases hp : p.1 = k
    · simp [hp]
    · have : k ≠ p.1 := fun e => hp e.symm
      simp only [hp, if_false, List.map_cons, ih, List.mem_cons, this, false_or]
      by_cases hm : k ∈ List.map (·.1) d <;> simp [hm]

theorem nodup_set {d : Dict α} (h : (d.map (·.1)).Nodup) (k : Str) (v : α) : ((d.set k v).map (·.1)).Nodup := by
  rw [keys_set]
  split
  · exact h
  · rename_i hk
    rw [List.nodup_append]
    refine ⟨h, by simp, ?_⟩
    intro a ha b hb
    simp at hb
    subst hb
    exact fun e => hk (e ▸ ha)

theorem has_iff (d : Dict α) (k : Str) : d.has k = true ↔ k ∈ d.map (·.1) := by
  induction d with
  | nil => simp [has]
  | cons p d ih =>
    simp only [has, get?_cons] at ih ⊢
    by_cases h : p.1 = k
    · simp [h]
    · have : k ≠ p.1 := fun e => h e.symm
      simp only [h, if_false, ih, List.map_cons, List.mem_cons, this, false_or]

theorem mem_of_get? {d : Dict α} {k : Str} {v : α} (h : d.get? k = some v) : (k, v) ∈ d := by
  induction d with
  | nil => simp at h
  | cons p d ih =>
    rw [get?_cons] at h
    by_cases hp : p.1 = k
    · simp [hp] at h
      subst hp; subst h
      simp
    · simp only [hp, if_false] at h
      exact List.mem_cons_of_mem _ (ih h)

theorem get?_of_mem {d : Dict α} (hn : (d.map (·.1)).Nodup) {k : Str} {v : α} (h : (k, v) ∈ d) : d.get? k = some v := by
  induction d with
  | nil => simp at h
  | cons p d ih =>
    rw [get?_cons]
    simp only [List.map_cons, List.nodup_cons] at hn
    rcases List.mem_cons.1 h with h | h
    · subst h; simp
    · have : p.1 ≠ k := by
        intro e
        exact hn.1 (e ▸ List.mem_map_of_mem (f := (·.1)) h)
      simp [this, ih hn.2 h]

end Dict
end Py
