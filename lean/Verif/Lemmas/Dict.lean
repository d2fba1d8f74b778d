import Verif.Model.Dict

namespace Toffee.Dict
variable {κ ν : Type} [DecidableEq κ]

theorem get?_eq_none {d : Dict κ ν} {k : κ} : get? d k = none ↔ k ∉ keys d := by
  induction d with
  | nil => simp [get?, keys]
  | cons e d ih =>
    obtain ⟨k', v⟩ := e
    simp only [get?, keys, List.map_cons, List.mem_cons, not_or]
    by_cases h : k' = k
    · subst h; simp
    · simp [h, ih, keys]; intro _ hk; exact h hk.symm

theorem has_iff {d : Dict κ ν} {k : κ} : has d k = true ↔ k ∈ keys d := by
  unfold has
  cases h : get? d k with
  | none => simp [get?_eq_none.1 h]
  | some v =>
    simp
    apply Classical.byContradiction
    intro hn; rw [get?_eq_none.2 hn] at h; cases h

theorem mem_of_get? {d : Dict κ ν} {k : κ} {v : ν} (h : get? d k = some v) : (k, v) ∈ d := by
  induction d with
  | nil => simp [get?] at h
  | cons e d ih =>
    obtain ⟨k', v'⟩ := e
    simp only [get?] at h
    by_cases hk : k' = k
    · simp [hk] at h; subst hk; subst h; simp
    · simp [hk] at h; exact List.mem_cons_of_mem _ (ih h)

theorem get?_of_mem {d : Dict κ ν} (hn : (keys d).Nodup) {k : κ} {v : ν} (h : (k, v) ∈ d) :
    get? d k = some v := by
  induction d with
  | nil => cases h
  | cons e d ih =>
    obtain ⟨k', v'⟩ := e
    simp only [keys, List.map_cons, List.nodup_cons] at hn
    rcases List.mem_cons.1 h with h | h
    · cases h; simp [get?]
    · have : k ∈ keys d := List.mem_map.2 ⟨_, h, rfl⟩
      have hne : k' ≠ k := by rintro rfl; exact hn.1 this
      simp [get?, hne]; exact ih hn.2 h

theorem keys_set_of_mem {d : Dict κ ν} {k : κ} {v : ν} (h : k ∈ keys d) :
    keys (set d k v) = keys d := by
  induction d with
  | nil => cases h
  | cons e d ih =>
    obtain ⟨k', v'⟩ := e
    by_cases hk : k' = k
    · simp [set, hk, keys]
    · have : k ∈ keys d := by
        rcases List.mem_cons.1 h with h | h
        · exact absurd h.symm hk
        · exact h
      simp only [set, hk, if_false, keys, List.map_cons]
      exact congrArg _ (ih this)

theorem set_of_not_mem {d : Dict κ ν} {k : κ} {v : ν} (h : k ∉ keys d) :
    set d k v = d ++ [(k, v)] := by
  induction d with
  | nil => rfl
  | cons e d ih =>
    obtain ⟨k', v'⟩ := e
    simp only [keys, List.map_cons, List.mem_cons, not_or] at h
    simp [set, Ne.symm h.1, ih h.2]

theorem keys_set (d : Dict κ ν) (k : κ) (v : ν) :
    keys (set d k v) = if k ∈ keys d then keys d else keys d ++ [k] := by
  split
  · exact keys_set_of_mem ‹_›
  · rw [set_of_not_mem ‹_›]; simp [keys]

theorem nodup_set {d : Dict κ ν} (hn : (keys d).Nodup) (k : κ) (v : ν) :
    (keys (set d k v)).Nodup := by
  rw [keys_set]
  split
  · exact hn
  · rename_i h
    rw [List.nodup_append]
    refine ⟨hn, by simp, ?_⟩
    intro a ha b hb
    simp at hb; subst hb
    rintro rfl; exact h ha

theorem get?_set_self (d : Dict κ ν) (k : κ) (v : ν) : get? (set d k v) k = some v := by
  induction d with
  | nil => simp [set, get?]
  | cons e d ih =>
    obtain ⟨k', v'⟩ := e
    by_cases hk : k' = k
    · simp [set, hk, get?]
    · simp [set, hk, get?, ih]

theorem get?_set_ne (d : Dict κ ν) {k j : κ} (h : k ≠ j) (v : ν) :
    get? (set d k v) j = get? d j := by
  induction d with
  | nil => simp [set, get?, h]
  | cons e d ih =>
    obtain ⟨k', v'⟩ := e
    by_cases hk : k' = k
    · simp [set, hk, get?, h]
    · simp [set, hk, get?, ih]

theorem keys_del_sublist (d : Dict κ ν) (k : κ) : (keys (del d k)).Sublist (keys d) := by
  induction d with
  | nil => exact List.Sublist.slnil
  | cons e d ih =>
    obtain ⟨k', v'⟩ := e
    by_cases hk : k' = k
    · simp [del, hk, keys]
    · simp only [del, hk, if_false, keys, List.map_cons]; exact ih.cons_cons _

theorem nodup_del {d : Dict κ ν} (hn : (keys d).Nodup) (k : κ) : (keys (del d k)).Nodup :=
  (keys_del_sublist d k).nodup hn

theorem get?_del_self {d : Dict κ ν} (hn : (keys d).Nodup) (k : κ) : get? (del d k) k = none := by
  induction d with
  | nil => rfl
  | cons e d ih =>
    obtain ⟨k', v'⟩ := e
    simp only [keys, List.map_cons, List.nodup_cons] at hn
    by_cases hk : k' = k
    · subst hk; simp [del]; exact get?_eq_none.2 hn.1
    · simp [del, hk, get?]; exact ih hn.2

theorem get?_del_ne (d : Dict κ ν) {k j : κ} (h : k ≠ j) : get? (del d k) j = get? d j := by
  induction d with
  | nil => rfl
  | cons e d ih =>
    obtain ⟨k', v'⟩ := e
    by_cases hk : k' = k
    · subst hk; simp [del, get?, h]
    · simp [del, hk, get?, ih]

theorem keys_modify (d : Dict κ ν) (k : κ) (f : ν → ν) : keys (modify d k f) = keys d := by
  induction d with
  | nil => rfl
  | cons e d ih =>
    obtain ⟨k', v'⟩ := e
    by_cases hk : k' = k
    · simp [modify, hk, keys]
    · simp only [modify, hk, if_false, keys, List.map_cons]; exact congrArg _ ih

theorem get?_modify (d : Dict κ ν) (k j : κ) (f : ν → ν) :
    get? (modify d k f) j = if k = j then (get? d j).map f else get? d j := by
  induction d with
  | nil => simp [modify, get?]
  | cons e d ih =>
    obtain ⟨k', v'⟩ := e
    by_cases hk : k' = k
    · subst hk
      by_cases hj : k' = j
      · simp [modify, get?, hj]
      · simp [modify, get?, hj]
    · by_cases hj : k' = j
      · subst hj; simp [modify, hk, get?, Ne.symm hk]
      · simp [modify, hk, get?, hj, ih]

theorem get?_map {μ : Type} (d : Dict κ ν) (f : ν → μ) (k : κ) :
    get? (d.map fun e => (e.1, f e.2)) k = (get? d k).map f := by
  induction d with
  | nil => rfl
  | cons e d ih =>
    obtain ⟨k', v'⟩ := e
    by_cases hk : k' = k <;> simp [get?, hk, ih]

/-- Two dictionaries with the same distinct key sequence and the same look-ups are equal. -/
theorem ext_keys {d e : Dict κ ν} (hk : keys d = keys e) (hn : (keys d).Nodup)
    (h : ∀ k ∈ keys d, get? d k = get? e k) : d = e := by
  induction d generalizing e with
  | nil => cases e with
    | nil => rfl
    | cons _ _ => simp [keys] at hk
  | cons a d ih =>
    cases e with
    | nil => simp [keys] at hk
    | cons b e =>
      obtain ⟨k, v⟩ := a; obtain ⟨k', v'⟩ := b
      simp only [keys, List.map_cons, List.cons.injEq] at hk
      obtain ⟨rfl, hk⟩ := hk
      simp only [keys, List.map_cons, List.nodup_cons] at hn
      have h0 := h k (by simp [keys])
      simp [get?] at h0; subst h0
      congr 1
      apply ih hk hn.2
      intro j hj
      have := h j (by simp only [keys, List.map_cons, List.mem_cons]; exact Or.inr hj)
      have hne : k ≠ j := by rintro rfl; exact hn.1 hj
      simpa [get?, hne] using this

end Toffee.Dict
