import Verif.Lemmas.BenchMixShared

/-! The test bench of `Verif.Model.BenchMix` with no hooks before the method, and reference models that may share
their state: the order in which the hooks run. -/

namespace Toffee.BenchMix

open Toffee.Loop Toffee.LoopSym

variable {X Y D M : Type}

variable {b : Bench X Y D M} {xs : List X} {xa : Nat → X} {ra : Nat → Ref X Y M} {ya : Nat → Y} {cy : Nat → Nat}

/-- Before call `i` is compared: the first call the hooks of which are still to run, and the models before them. -/
def ga (b : Bench X Y D M) (xa : Nat → X) (ra : Nat → Ref X Y M) (cy : Nat → Nat) (n : Nat) (g : G Y D M) :
    Nat → Nat × G Y D M
  | 0 => (0, g)
  | i + 1 =>
    if i + 1 = n ∨ 0 < cy (i + 1) then
      (i + 1, runItems b xa ra (srt ra (posts b (ga b xa ra cy n g i).1 (i + 1 - (ga b xa ra cy n g i).1)))
        (ga b xa ra cy n g i).2)
    else ga b xa ra cy n g i

theorem ga_le {n : Nat} {g : G Y D M} (i : Nat) : (ga b xa ra cy n g i).1 ≤ i := by
  induction i with
  | zero => exact Nat.le_refl 0
  | succ i ih =>
    rw [ga]
    split
    · exact Nat.le_refl _
    · omega

theorem mem_posts_fst {a K : Nat} {q : Nat × Nat} (h : q ∈ posts b a K) : a ≤ q.1 ∧ q.1 < a + K := by
  unfold posts at h
  obtain ⟨i, hi, h⟩ := List.mem_flatMap.1 h
  obtain ⟨j, hj, rfl⟩ := List.mem_map.1 h
  rw [List.mem_range'_1] at hi
  exact hi

/-- The results of a call do not change any more. -/
theorem ga_results {n j : Nat} {g : G Y D M} {i : Nat} (h : j < (ga b xa ra cy n g i).1) (k : Nat) :
    j < (ga b xa ra cy n g (i + k)).1 ∧
      (ga b xa ra cy n g (i + k)).2.results j = (ga b xa ra cy n g i).2.results j := by
  induction k with
  | zero => exact ⟨h, rfl⟩
  | succ k ih =>
    rw [← Nat.add_assoc, ga]
    split
    · have := ga_le (b := b) (xa := xa) (ra := ra) (cy := cy) (n := n) (g := g) (i + k)
      refine ⟨by simp only; omega, ?_⟩
      rw [← ih.2]
      apply runItems_results
      intro q hq
      have := mem_posts_fst ((srt_perm _).mem_iff.1 hq)
      omega
    · exact ih

/-- The calls of a group run together. -/
theorem ga_cut {n : Nat} {g : G Y D M} {a K : Nat} (ha : (ga b xa ra cy n g a).1 = a) (hK : 0 < K) (hn : a + K ≤ n)
    (h : Cut n cy a K) :
    ga b xa ra cy n g (a + K) = (a + K, runItems b xa ra (srt ra (posts b a K)) (ga b xa ra cy n g a).2) := by
  have h0 : ∀ k, k < K → ga b xa ra cy n g (a + k) = ga b xa ra cy n g a := by
    intro k
    induction k with
    | zero => intro _; rfl
    | succ k ih =>
      intro hk
      rw [← Nat.add_assoc, ga, if_neg (by have := h.1 (a + k + 1) (by omega) (by omega); omega)]
      exact ih (by omega)
  obtain ⟨k, rfl⟩ : ∃ k, K = k + 1 := ⟨K - 1, by omega⟩
  rw [← Nat.add_assoc, ga, if_pos (by exact h.2), h0 k (by omega), ha, show a + k + 1 - a = k + 1 by omega]

/-- Where the reference models are. -/
def After (b : Bench X Y D M) (xa : Nat → X) (ra : Nat → Ref X Y M) (cy : Nat → Nat) (n : Nat) (g0 : G Y D M)
    (_ a' : Nat) (g : G Y D M) : Prop :=
  (ga b xa ra cy n g0 a').1 = a' ∧ Same g (ga b xa ra cy n g0 a').2

theorem models_after (g0 : G Y D M) (hp : b.pre = []) : Models b xs xa ra ya (After b xa ra cy xs.length g0)
    (okIn b ya (ga b xa ra cy xs.length g0 xs.length).2) cy where
  dut := fun d h => h
  flush := by
    intro a a' K g h1 h2 _ h4 hI
    by_cases hK : K = 0
    · subst hK
      exact ⟨hI, rfl⟩
    · have hc := ga_cut (b := b) (xa := xa) (ra := ra) (g := g0) hI.1 (by omega) (by omega) (h4 hp (by omega))
      have hS := hI.2.items (b := b) (xa := xa) (ra := ra) (srt ra (posts b a' K))
      refine ⟨⟨by rw [hc], by rw [hc]; exact hS⟩, ?_⟩
      unfold okCalls okIn
      rw [hS.2, Bool.eq_iff_iff, List.all_eq_true, List.all_eq_true]
      have key : ∀ i ∈ List.range' a' K, (ga b xa ra cy xs.length g0 xs.length).2.results i =
          (runItems b xa ra (srt ra (posts b a' K)) (ga b xa ra cy xs.length g0 a').2).results i := by
        intro i hi
        rw [List.mem_range'_1] at hi
        have := (ga_results (b := b) (xa := xa) (ra := ra) (cy := cy) (n := xs.length) (j := i) (g := g0) (i := a' + K)
          (by rw [hc]; exact hi.2) (xs.length - (a' + K))).2
        rw [show a' + K + (xs.length - (a' + K)) = xs.length by omega, hc] at this
        exact this
      exact ⟨fun h i hi => by rw [key i hi]; exact h i hi, fun h i hi => by rw [← key i hi]; exact h i hi⟩
  both := by
    intro a K g _ _ _ h4
    rw [hp] at h4
    exact absurd h4 (Nat.lt_irrefl 0)

end Toffee.BenchMix
