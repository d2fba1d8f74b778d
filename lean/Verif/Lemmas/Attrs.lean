import Verif.Model.Attrs

/-! Lemmas about attribute lookup (`Verif.Model.Attrs`). -/

namespace Toffee.Attrs

theorem get_set (i : Inst) (n m : Name) (v : Val) :
    (i.set n v).get m = if n = m then some v else i.get m := by
  by_cases h : n = m <;> simp [Inst.get, Inst.set, lookup, h]

theorem mem_dir {i : Inst} {n : Name} {v : Val} (h : i.get n = some v) : n ∈ i.dir := by
  have lk : ∀ (l : List (Name × Val)) (v : Val), lookup n l = some v → n ∈ l.map (·.1) := by
    intro l
    induction l with
    | nil => intro v h; cases h
    | cons a l ih =>
      intro v h
      obtain ⟨m, w⟩ := a
      unfold lookup at h
      by_cases e : m = n
      · simp [e]
      · rw [if_neg e] at h
        exact List.mem_cons_of_mem _ (ih v h)
  unfold Inst.dir
  rw [List.mem_eraseDups]
  unfold Inst.get at h
  split at h
  · rename_i w hw; simp only [List.mem_append]; exact .inl (.inl (lk _ _ hw))
  · unfold Cls.get at h
    split at h
    · rename_i w hw; simp only [List.mem_append]; exact .inl (.inr (lk _ _ hw))
    · simp only [List.mem_append, List.mem_cons]
      split at h
      · exact .inr (.inl ‹_›)
      · split at h
        · exact .inr (.inr ‹_›)
        · cases h

theorem mem_parts {i : Inst} {n : Name} {k : Nat} : (n, k) ∈ i.parts ↔ i.get n = some (.part k) := by
  unfold Inst.parts
  rw [List.mem_filterMap]
  constructor
  · rintro ⟨a, _, h⟩
    split at h
    · rename_i j hj; cases h; exact hj
    · cases h
  · intro h
    exact ⟨n, mem_dir h, by simp [h]⟩

theorem mem_level {i : Inst} {n : Name} :
    n ∈ level i ↔ n ∈ i.cls.signals ∨ i.get n = some .placeholder := by
  unfold level
  simp only [List.mem_append, List.mem_filter, beq_iff_eq]
  exact or_congr Iff.rfl ⟨fun h => h.2, fun h => ⟨mem_dir h, h⟩⟩

/-- Making the parts anew changes no attribute. -/
theorem get_remake (l : List (Name × Nat)) (i : Inst) (n : Name)
    (h : ∀ q ∈ l, i.get q.1 = some (.part q.2)) :
    (l.foldl (fun i p => i.set p.1 (.part p.2)) i).get n = i.get n := by
  induction l generalizing i with
  | nil => rfl
  | cons q l ih =>
    have e : ∀ m, (i.set q.1 (.part q.2)).get m = i.get m := by
      intro m
      rw [get_set]
      by_cases e : q.1 = m
      · rw [if_pos e, ← e, h q (by simp)]
      · rw [if_neg e]
    rw [List.foldl_cons, ih _ (fun a ha => by rw [e]; exact h a (by simp [ha])), e]

theorem current_foldl {α : Type} (f : α → Name × Val) (l : List α) (i : Inst) :
    (l.foldl (fun i p => i.set (f p).1 (f p).2) i).current = i.current := by
  induction l generalizing i with
  | nil => rfl
  | cons q l ih => rw [List.foldl_cons, ih]; rfl

theorem init_current (c : Cls) : (init c).current = level (init0 c) :=
  current_foldl (fun p : Name × Nat => (p.1, .part p.2)) _ _

theorem init_get (c : Cls) (n : Name) : (init c).get n = (init0 c).get n :=
  get_remake _ { init0 c with current := level (init0 c) } n fun _ hq => mem_parts.1 hq

theorem connect_current {i i' : Inst} {l : List (Name × Nat)} (h : connect i l = some i') :
    i'.current = i.current := by
  induction l generalizing i with
  | nil => cases h; rfl
  | cons q l ih =>
    unfold connect at h
    split at h
    · rw [ih h]; rfl
    · cases h

/-- An attribute with no matched signal keeps its value. -/
theorem connect_other {i i' : Inst} {l : List (Name × Nat)} (h : connect i l = some i') {n : Name}
    (hn : n ∉ l.map (·.1)) : i'.get n = i.get n := by
  induction l generalizing i with
  | nil => cases h; rfl
  | cons q l ih =>
    unfold connect at h
    split at h
    · rw [ih h (fun x => hn (by simp [List.map_cons]; exact .inr (by simpa using x))), get_set, if_neg]
      exact fun e => hn (by simp [e])
    · cases h

/-- An attribute with a matched signal is a pin. -/
theorem connect_found {i i' : Inst} {l : List (Name × Nat)} (h : connect i l = some i') {n : Name}
    (hn : n ∈ l.map (·.1)) : ∃ p, (n, p) ∈ l ∧ i'.get n = some (.pin p) := by
  induction l generalizing i with
  | nil => cases hn
  | cons q l ih =>
    unfold connect at h
    split at h
    · by_cases e : n ∈ l.map (·.1)
      · obtain ⟨p, h1, h2⟩ := ih h e
        exact ⟨p, List.mem_cons_of_mem _ h1, h2⟩
      · rcases List.mem_cons.1 hn with e' | e'
        · refine ⟨q.2, by simp [e'], ?_⟩
          rw [connect_other h e, get_set, if_pos e'.symm]
        · exact absurd e' e
    · cases h

theorem connect_ok {i : Inst} {l : List (Name × Nat)} (h : i.get nLevel = some .names)
    (hl : nLevel ∉ l.map (·.1)) : ∃ i', connect i l = some i' := by
  induction l generalizing i with
  | nil => exact ⟨i, rfl⟩
  | cons q l ih =>
    unfold connect
    rw [if_pos h]
    simp only [List.map_cons, List.mem_cons, not_or] at hl
    exact ih (by rw [get_set, if_neg (fun e => hl.1 e.symm)]; exact h) hl.2

/-- The loop of `missing`. -/
theorem fill_get (access : Bool) (con : List Name) (l : List Name) (i : Inst) (n : Name) :
    (l.foldl (fun i n => if n ∈ con ∨ access = false then i else i.set n .dummy) i).get n =
      if n ∈ l ∧ n ∉ con ∧ access = true then some .dummy else i.get n := by
  induction l generalizing i with
  | nil => simp
  | cons m l ih =>
    rw [List.foldl_cons, ih]
    by_cases hc : n ∈ con
    · simp only [hc, not_true_eq_false, false_and, and_false, if_false]
      split
      · rfl
      · rename_i hm
        rw [get_set, if_neg]
        exact fun e => hm (.inl (e ▸ hc))
    · cases access
      · simp
      · by_cases hl : n ∈ l
        · simp [hl, hc]
        · simp only [hl, false_and, if_false, List.mem_cons, or_false, hc, not_false_eq_true, true_and]
          by_cases e : n = m
          · subst e; simp [hc, get_set]
          · simp only [e, false_and, if_false]
            split
            · rfl
            · rw [get_set, if_neg (fun x => e x.symm)]

theorem missing_get {access : Bool} {con : List Name} {i i' : Inst} (h : missing access con i = some i')
    (n : Name) :
    i'.get n = if n ∈ i.current ∧ n ∉ con ∧ access = true then some .dummy else i.get n := by
  unfold missing at h
  split at h
  · cases h; exact fill_get ..
  · cases h

theorem call_ok {i : Inst} {n : Name} {k : Res} {j : Inst} {ps : List (Name × Nat)}
    (h : i.call n k = .ok j ps) : i.get n = some .method ∧ k = .ok j ps := by
  unfold Inst.call at h
  split at h
  · exact ⟨‹_›, h⟩
  · cases h

theorem finish_ok {inputs : List Nat} {i j : Inst} {qs ps : List (Name × Nat)}
    (h : finish inputs i qs = .ok j ps) : j = i ∧ ps = qs := by
  unfold finish at h
  split at h
  · have := (call_ok h).2; cases this; exact ⟨rfl, rfl⟩
  · have := (call_ok (call_ok h).2).2; cases this; exact ⟨rfl, rfl⟩
  · have := (call_ok h).2
    split at this
    · have := (call_ok this).2; cases this; exact ⟨rfl, rfl⟩
    · cases this

/-- The stages of a `bind` that returns. -/
theorem bind_ok {access : Bool} {found : List (Name × Nat)} {inputs : List Nat} {i j : Inst}
    {ps : List (Name × Nat)} (h : bind access found inputs i = .ok j ps) :
    ∃ i1 i2, connect i found = some i1 ∧ missing access (found.map (·.1)) i1 = some i2 ∧
      j = i2.set nBound (.flag true) ∧ ps = i2.parts ∧
      finish inputs (i2.set nBound (.flag true)) i2.parts = .ok j ps := by
  have h := (call_ok (call_ok h).2).2
  split at h
  · cases h
  · rename_i i1 h1
    split at h
    · cases h
    · rename_i i2 h2
      exact ⟨i1, i2, h1, h2, (finish_ok h).1, (finish_ok h).2, h⟩

/-- After the connections a signal of this level is its pin or the dummy. -/
theorem taken {access : Bool} {found : List (Name × Nat)} {i i1 i2 : Inst}
    (h1 : connect i found = some i1) (h2 : missing access (found.map (·.1)) i1 = some i2) {n : Name}
    (hn : n ∈ i.current) (hf : n ∈ found.map (·.1) ∨ access = true) :
    i2.get n = some .dummy ∨ ∃ p, (n, p) ∈ found ∧ i2.get n = some (.pin p) := by
  rw [missing_get h2, connect_current h1]
  by_cases c : n ∈ found.map (·.1)
  · obtain ⟨p, hp, e⟩ := connect_found h1 c
    exact .inr ⟨p, hp, by rw [if_neg (fun x => x.2.1 c), e]⟩
  · exact .inl (by rw [if_pos ⟨hn, c, hf.resolve_left c⟩])

end Toffee.Attrs
