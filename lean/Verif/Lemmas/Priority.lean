import Verif.Model.Priority
/-! Lemmas about the stable insertion sort. -/

namespace Toffee.Priority

variable {α : Type}

theorem insertStable_perm (x : α × Int) (l : List (α × Int)) :
    (insertStable x l).Perm (x :: l) := by
  induction l with
  | nil => exact List.Perm.refl _
  | cons y ys ih =>
    simp only [insertStable]
    split
    · exact (List.Perm.cons y ih).trans (List.Perm.swap x y ys)
    · exact List.Perm.refl _

theorem insertStable_sorted (x : α × Int) (l : List (α × Int))
    (h : l.Pairwise (fun a b => a.2 ≤ b.2)) :
    (insertStable x l).Pairwise (fun a b => a.2 ≤ b.2) := by
  induction l with
  | nil => simp [insertStable]
  | cons y ys ih =>
    rw [List.pairwise_cons] at h
    simp only [insertStable]
    split
    · rename_i hle
      refine List.pairwise_cons.2 ⟨?_, ih h.2⟩
      intro b hb
      rcases List.mem_cons.1 ((insertStable_perm x ys).mem_iff.1 hb) with rfl | hb
      · exact hle
      · exact h.1 b hb
    · rename_i hle
      refine List.pairwise_cons.2 ⟨?_, List.pairwise_cons.2 h⟩
      intro b hb
      rcases List.mem_cons.1 hb with rfl | hb
      · omega
      · have := h.1 b hb
        omega

theorem insertStable_filter (x : α × Int) (l : List (α × Int)) (p : Int) :
    l.Pairwise (fun a b => a.2 ≤ b.2) →
    (insertStable x l).filter (fun a => a.2 == p) =
      l.filter (fun a => a.2 == p) ++ (if x.2 = p then [x] else []) := by
  induction l with
  | nil =>
    intro _
    by_cases hx : x.2 = p <;> simp [insertStable, hx]
  | cons y ys ih =>
    intro h
    rw [List.pairwise_cons] at h
    simp only [insertStable]
    split
    · rw [List.filter_cons, List.filter_cons, ih h.2]
      split <;> simp
    · rename_i hlt
      by_cases hx : x.2 = p
      · have hnone : (y :: ys).filter (fun a => a.2 == p) = [] := by
          rw [List.filter_eq_nil_iff]
          intro a ha
          rcases List.mem_cons.1 ha with rfl | ha
          · simp; omega
          · have := h.1 a ha
            simp; omega
        rw [List.filter_cons, hnone]
        simp [hx]
      · rw [List.filter_cons]
        simp [hx]

/-- The three facts about the sort, for any accumulator. -/
theorem sorted_aux (xs acc : List (α × Int)) (hacc : acc.Pairwise (fun a b => a.2 ≤ b.2)) :
    (xs.foldl (fun acc x => insertStable x acc) acc).Perm (acc ++ xs) ∧
    (xs.foldl (fun acc x => insertStable x acc) acc).Pairwise (fun a b => a.2 ≤ b.2) ∧
    ∀ p, (xs.foldl (fun acc x => insertStable x acc) acc).filter (fun a => a.2 == p) =
      (acc ++ xs).filter (fun a => a.2 == p) := by
  induction xs generalizing acc with
  | nil => simpa using hacc
  | cons x xs ih =>
    simp only [List.foldl_cons]
    obtain ⟨h1, h2, h3⟩ := ih (insertStable x acc) (insertStable_sorted x acc hacc)
    refine ⟨?_, h2, ?_⟩
    · refine h1.trans ?_
      refine ((insertStable_perm x acc).append_right xs).trans ?_
      exact List.perm_middle.symm
    · intro p
      rw [h3 p, List.filter_append, insertStable_filter x acc p hacc, List.filter_append,
        List.filter_cons]
      split <;> simp_all

theorem sorted_perm (xs : List (α × Int)) : (sorted xs).Perm xs := by
  simpa [sorted] using (sorted_aux xs [] List.Pairwise.nil).1

theorem sorted_sorted (xs : List (α × Int)) :
    (sorted xs).Pairwise (fun a b => a.2 ≤ b.2) :=
  (sorted_aux xs [] List.Pairwise.nil).2.1

theorem sorted_filter (xs : List (α × Int)) (p : Int) :
    (sorted xs).filter (fun a => a.2 == p) = xs.filter (fun a => a.2 == p) := by
  simpa [sorted] using (sorted_aux xs [] List.Pairwise.nil).2.2 p

theorem mem_sorted {xs : List (α × Int)} {x : α × Int} : x ∈ sorted xs ↔ x ∈ xs :=
  (sorted_perm xs).mem_iff

/-- A list sorted by key is determined by its sublists of equal keys. -/
theorem sorted_unique (ys zs : List (α × Int))
    (hy : ys.Pairwise (fun a b => a.2 ≤ b.2)) (hz : zs.Pairwise (fun a b => a.2 ≤ b.2))
    (h : ∀ p, ys.filter (fun a => a.2 == p) = zs.filter (fun a => a.2 == p)) : ys = zs := by
  induction ys generalizing zs with
  | nil =>
    cases zs with
    | nil => rfl
    | cons z zs =>
      have := h z.2
      simp at this
  | cons y ys ih =>
    cases zs with
    | nil =>
      have := h y.2
      simp at this
    | cons z zs =>
      rw [List.pairwise_cons] at hy hz
      have hyz : y.2 = z.2 := by
        have h1 : y ∈ (z :: zs).filter (fun a => a.2 == y.2) := by rw [← h]; simp
        have h2 : z ∈ (y :: ys).filter (fun a => a.2 == z.2) := by rw [h]; simp
        simp only [List.mem_filter, beq_iff_eq, and_true, List.mem_cons] at h1 h2
        rcases h1 with rfl | h1
        · rfl
        · rcases h2 with rfl | h2
          · rfl
          · have := hy.1 _ h2
            have := hz.1 _ h1
            omega
      have hd := h y.2
      have e1 : (z.2 == y.2) = true := by simp [hyz]
      simp only [List.filter_cons, e1, beq_self_eq_true, if_true] at hd
      have hhead : y = z := (List.cons.inj hd).1
      subst hhead
      rw [ih zs hy.2 hz.2 (fun p => by
        have hp := h p
        simp only [List.filter_cons] at hp
        split at hp
        · exact (List.cons.inj hp).2
        · exact hp)]

end Toffee.Priority
