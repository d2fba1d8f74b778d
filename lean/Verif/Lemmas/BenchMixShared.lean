import Verif.Lemmas.BenchMixBoth

/-! The test bench of `Verif.Model.BenchMix` with hooks before the method, and reference models that may share
their state: the order in which the hooks run. -/

namespace Toffee.BenchMix

open Toffee.Loop Toffee.LoopSym

variable {X Y D M : Type}

variable {b : Bench X Y D M} {xs : List X} {xa : Nat → X} {ra : Nat → Ref X Y M} {ya : Nat → Y}

/-- The hooks that are asked for together: before the method of call `c`, and after that of the call before. -/
def items (b : Bench X Y D M) (n c : Nat) : List (Nat × Nat) :=
  (if c < n then (List.range' 0 b.pre.length).map fun j => (c, j) else []) ++
    if c = 0 then [] else posts b (c - 1) 1

/-- Before turn `c`. -/
def gs (b : Bench X Y D M) (xa : Nat → X) (ra : Nat → Ref X Y M) (n : Nat) (g : G Y D M) : Nat → G Y D M
  | 0 => g
  | c + 1 => runItems b xa ra (srt ra (items b n c)) (gs b xa ra n g c)

/-- The same but for the DUT. -/
def Same (g g' : G Y D M) : Prop := g.ref = g'.ref ∧ g.results = g'.results

theorem Same.items (l : List (Nat × Nat)) : ∀ {g g' : G Y D M}, Same g g' →
    Same (runItems b xa ra l g) (runItems b xa ra l g') := by
  induction l with
  | nil => intro g g' h; exact h
  | cons q l ih =>
    intro g g' h
    refine ih ⟨?_, ?_⟩
    · simp only [hook, h.1]
    · simp only [hook, h.1, h.2]

/-- A call whose hooks are not among those that run keeps its results. -/
theorem runItems_results {i : Nat} (l : List (Nat × Nat)) : ∀ (g : G Y D M), (∀ q ∈ l, q.1 ≠ i) →
    (runItems b xa ra l g).results i = g.results i := by
  induction l with
  | nil => intro g _; rfl
  | cons q l ih =>
    intro g h
    rw [show runItems b xa ra (q :: l) g = runItems b xa ra l ((hook b q.1 (xa q.1) q.2 (ra q.2)).run g).1 from rfl,
      ih _ fun q' hq => h q' (by simp [hq])]
    have : i ≠ q.1 := fun e => h q (by simp) e.symm
    simp only [hook, upd, this, if_false]

theorem mem_items {n c : Nat} {q : Nat × Nat} (h : q ∈ items b n c) : q.1 = c ∨ q.1 + 1 = c ∧ b.post ≠ [] := by
  unfold items at h
  rcases List.mem_append.1 h with h | h
  · split at h
    · obtain ⟨j, _, rfl⟩ := List.mem_map.1 h
      exact .inl rfl
    · simp at h
  · split at h
    · simp at h
    · unfold posts at h
      obtain ⟨i, hi, h⟩ := List.mem_flatMap.1 h
      obtain ⟨j, hj, rfl⟩ := List.mem_map.1 h
      rw [List.mem_range'_1] at hi hj
      refine .inr ⟨by simp only; omega, ?_⟩
      intro e
      rw [e] at hj
      simp only [List.length_nil] at hj
      omega

/-- The results of a call do not change any more. -/
theorem gs_results {n i : Nat} {g : G Y D M} {c : Nat} (hc : i + 2 ≤ c ∨ i + 1 ≤ c ∧ b.post = []) (k : Nat) :
    (gs b xa ra n g (c + k)).results i = (gs b xa ra n g c).results i := by
  induction k with
  | zero => rfl
  | succ k ih =>
    rw [← ih, ← Nat.add_assoc, gs]
    apply runItems_results
    intro q hq
    rcases mem_items ((srt_perm _).mem_iff.1 hq) with h | ⟨h1, h2⟩
    · omega
    · rcases hc with hc | hc
      · omega
      · exact absurd hc.2 h2

/-- All results of call `i` agree with that of the method. -/
def okIn (b : Bench X Y D M) (ya : Nat → Y) (g : G Y D M) (i : Nat) : Bool := (g.results i).all (agrees b (ya i))

/-- Where the reference models are. -/
def At (b : Bench X Y D M) (xa : Nat → X) (ra : Nat → Ref X Y M) (n : Nat) (g0 : G Y D M) (a a' : Nat) (g : G Y D M) :
    Prop :=
  a' + 1 = a ∧ Same g (gs b xa ra n g0 a) ∨
    a' = a ∧ Same g (gs b xa ra n g0 (if a = n then n + 1 else a))

theorem models_shared (g0 : G Y D M) (cy : Nat → Nat) (hn : 0 < xs.length) : Models b xs xa ra ya (At b xa ra xs.length g0)
    (okIn b ya (gs b xa ra xs.length g0 (xs.length + 1))) cy where
  dut := fun d h => h
  flush := by
    intro a a' K g h1 h2 h3 _ hI
    by_cases hK : K = 0
    · subst hK
      exact ⟨hI, rfl⟩
    · rcases hI with ⟨e, hS⟩ | ⟨e, hS⟩
      · have : K = 1 := by omega
        subst this
        have hS' := hS.items (b := b) (xa := xa) (ra := ra) (srt ra (posts b a' 1))
        rcases h3 with h3 | h3
        · have e1 : gs b xa ra xs.length g0 (xs.length + 1) =
              runItems b xa ra (srt ra (posts b a' 1)) (gs b xa ra xs.length g0 a) := by
            rw [gs, ← h3]
            congr 2
            unfold items
            rw [if_neg (by omega), if_neg (by omega), show a - 1 = a' by omega, List.nil_append]
          rw [← e1] at hS'
          refine ⟨.inr ⟨e, ?_⟩, ?_⟩
          · rw [if_pos h3]; exact hS'
          · unfold okCalls okIn
            rw [hS'.2]
        · have e0 : posts b a' 1 = [] := by unfold posts; simp [h3]
          rw [e0] at hS' ⊢
          change Same g _ at hS'
          have hr : ∀ k, a ≤ k → (gs b xa ra xs.length g0 k).results a' = (gs b xa ra xs.length g0 a).results a' := by
            intro k hk
            have := gs_results (b := b) (xa := xa) (ra := ra) (n := xs.length) (i := a') (g := g0) (c := a) (.inr ⟨by omega, h3⟩) (k - a)
            rw [show a + (k - a) = k by omega] at this
            exact this
          refine ⟨.inr ⟨e, ?_⟩, ?_⟩
          · split
            · rename_i he
              rw [gs, ← he]
              have : items b a a = [] := by
                unfold items; rw [if_neg (by omega), if_neg (by omega), show a - 1 = a' by omega, e0]; rfl
              rw [this]
              exact he ▸ hS
            · exact hS
          · show okCalls b ya a' 1 g = _
            unfold okCalls okIn
            simp only [List.range'_succ, List.range'_zero, List.all_cons, List.all_nil, Bool.and_true]
            rw [hS.2, hr (xs.length + 1) (by omega)]
      · omega
  both := by
    intro a K g h1 h2 h3 h4 h5 hI
    have hS : Same g (gs b xa ra xs.length g0 a) := by
      rcases hI with ⟨_, hS⟩ | ⟨_, hS⟩
      · exact hS
      · rw [if_neg (by omega)] at hS; exact hS
    have hit : ((List.range' 0 b.pre.length).map fun j => (a, j)) ++ posts b (a - K) K = items b xs.length a := by
      unfold items
      rw [if_pos h2]
      congr 1
      by_cases hK : K = 0
      · subst hK
        rw [posts_zero]
        split
        · rfl
        · rcases h5 rfl with h | h
          · omega
          · unfold posts; simp [h]
      · have : K = 1 := by omega
        subst this
        rw [if_neg (by omega)]
    rw [hit]
    have hS' := hS.items (b := b) (xa := xa) (ra := ra) (srt ra (items b xs.length a))
    refine ⟨.inl ⟨rfl, hS'⟩, ?_⟩
    unfold okCalls okIn
    rw [hS'.2]
    rw [Bool.eq_iff_iff, List.all_eq_true, List.all_eq_true]
    have key : ∀ i ∈ List.range' (a - K) K, (gs b xa ra xs.length g0 (xs.length + 1)).results i =
        (runItems b xa ra (srt ra (items b xs.length a)) (gs b xa ra xs.length g0 a)).results i := by
      intro i hi
      rw [List.mem_range'_1] at hi
      have := gs_results (b := b) (xa := xa) (ra := ra) (n := xs.length) (i := i) (g := g0) (c := a + 1) (.inl (by omega))
        (xs.length - a)
      rw [show a + 1 + (xs.length - a) = xs.length + 1 by omega] at this
      exact this
    exact ⟨fun h i hi => by rw [key i hi]; exact h i hi, fun h i hi => by rw [← key i hi]; exact h i hi⟩

/-- Sorting by insertion is sorting by merging. -/
theorem sorted_mergeSort {α : Type} (pr : α → Int) (L : List α) :
    Priority.sorted (L.map fun a => (a, pr a)) =
      (L.mergeSort fun a a' => decide (pr a ≤ pr a')).map fun a => (a, pr a) := by
  have hp : (L.mergeSort fun a a' => decide (pr a ≤ pr a')).Perm L := List.mergeSort_perm ..
  refine Priority.sorted_unique _ _ (Priority.sorted_sorted _) ?_ ?_
  · rw [List.pairwise_map]
    have := List.pairwise_mergeSort (le := fun a a' : α => decide (pr a ≤ pr a'))
      (by intro a b c; simp; omega) (by intro a b; simp; omega) L
    exact this.imp fun h => by simpa using h
  · intro p
    rw [Priority.sorted_filter, List.filter_map, List.filter_map]
    congr 1
    have hs : (L.filter ((fun a : α × Int => a.2 == p) ∘ fun r => (r, pr r))).Sublist
        (L.mergeSort fun a a' => decide (pr a ≤ pr a')) := by
      refine List.sublist_mergeSort (by intro a b c; simp; omega) (by intro a b; simp; omega) ?_
        List.filter_sublist
      rw [List.pairwise_filter]
      refine List.pairwise_of_forall fun a b ha hb => ?_
      simp at ha hb
      simp; omega
    have hs' := hs.filter ((fun a : α × Int => a.2 == p) ∘ fun r => (r, pr r))
    rw [List.filter_filter] at hs'
    simp only [Bool.and_self] at hs'
    exact hs'.eq_of_length ((hp.filter _).length_eq.symm)

end Toffee.BenchMix
