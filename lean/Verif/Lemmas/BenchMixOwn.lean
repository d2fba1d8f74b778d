import Verif.Lemmas.BenchMixBoth

/-! The test bench of `Verif.Model.BenchMix` with reference models that have nothing to do with one
another. -/

namespace Toffee.BenchMix

open Toffee.Loop Toffee.LoopSym

variable {X Y D M : Type}

/-- The reference model number `j` with a state of its own. -/
def own (j : Nat) (r : Ref X Y M) : Ref X Y (Nat → M) where
  model := fun m x => (fun k => if k = j then (r.model (m j) x).1 else m k, (r.model (m j) x).2)
  prio := r.prio

/-- Model `j` after `k` calls. -/
def stOf (xa : Nat → X) (rs : Nat → Ref X Y M) (m : Nat → M) (j : Nat) : Nat → M
  | 0 => m j
  | k + 1 => ((rs j).model (stOf xa rs m j k) (xa k)).1

/-- What model `j` returns on call `i`. -/
def outOf (xa : Nat → X) (rs : Nat → Ref X Y M) (m : Nat → M) (j i : Nat) : Option Y :=
  ((rs j).model (stOf xa rs m j i) (xa i)).2

/-- Model `j` has seen the calls below `k j`. -/
structure Seen (N : Nat) (xa : Nat → X) (rs : Nat → Ref X Y M) (m : Nat → M) (k : Nat → Nat) (g : G Y D (Nat → M)) :
    Prop where
  ref : ∀ j < N, g.ref j = stOf xa rs m j (k j)
  results : ∀ i z, some z ∈ g.results i ↔ ∃ j, j < N ∧ i < k j ∧ outOf xa rs m j i = some z

variable {b : Bench X Y D (Nat → M)} {xs : List X} {xa : Nat → X} {rs : Nat → Ref X Y M} {m : Nat → M} {N : Nat}
  {ya : Nat → Y}

theorem Seen.congr {k k' : Nat → Nat} {g : G Y D (Nat → M)} (h : Seen N xa rs m k g) (hk : ∀ j < N, k j = k' j) :
    Seen N xa rs m k' g where
  ref := fun j hj => by rw [h.ref j hj, hk j hj]
  results := fun i z => by
    rw [h.results]
    constructor
    · rintro ⟨j, h1, h2, h3⟩
      exact ⟨j, h1, by rw [← hk j h1]; exact h2, h3⟩
    · rintro ⟨j, h1, h2, h3⟩
      exact ⟨j, h1, by rw [hk j h1]; exact h2, h3⟩

/-- One hook runs. -/
theorem Seen.step {k : Nat → Nat} {g : G Y D (Nat → M)} (h : Seen N xa rs m k g) {j : Nat} (hj : j < N) :
    Seen N xa rs m (upd k j (k j + 1)) ((hook b (k j) (xa (k j)) j (own j (rs j))).run g).1 where
  ref := by
    intro u hu
    by_cases e : u = j
    · subst e
      simp only [hook, own, upd, if_true, h.ref u hu]; rfl
    · simp only [hook, own, upd, e, if_false, h.ref u hu]
  results := by
    intro i z
    have ho : ((own j (rs j)).model g.ref (xa (k j))).2 = outOf xa rs m j (k j) := by
      simp only [own, outOf, h.ref j hj]
    simp only [hook, upd, ho]
    by_cases e : i = k j
    · subst e
      rw [if_pos rfl, List.mem_append, h.results]
      constructor
      · rintro (⟨u, h1, h2, h3⟩ | h1)
        · have : u ≠ j := by rintro rfl; omega
          exact ⟨u, h1, by simp only [this, if_false]; exact h2, h3⟩
        · exact ⟨j, hj, by simp, by simpa [eq_comm] using h1⟩
      · rintro ⟨u, h1, h2, h3⟩
        by_cases e : u = j
        · subst e
          exact .inr (by simp [h3])
        · rw [if_neg e] at h2
          exact .inl ⟨u, h1, h2, h3⟩
    · rw [if_neg e, h.results]
      constructor
      · rintro ⟨u, h1, h2, h3⟩
        refine ⟨u, h1, ?_, h3⟩
        split
        · rename_i e'; subst e'; omega
        · exact h2
      · rintro ⟨u, h1, h2, h3⟩
        refine ⟨u, h1, ?_, h3⟩
        split at h2
        · rename_i e'; subst e'; omega
        · exact h2

/-- Hooks run, each model's in the order of the calls. -/
theorem Seen.items (l : List (Nat × Nat)) : ∀ (k c : Nat → Nat) (g : G Y D (Nat → M)), Seen N xa rs m k g →
    (∀ q ∈ l, q.2 < N) → (∀ j, (l.filter fun q => q.2 == j).map Prod.fst = List.range' (k j) (c j)) →
    Seen N xa rs m (fun j => k j + c j) (runItems b xa (fun j => own j (rs j)) l g) := by
  induction l with
  | nil =>
    intro k c g h _ hf
    refine h.congr fun j _ => ?_
    have := congrArg List.length (hf j)
    simp at this
    omega
  | cons q l ih =>
    intro k c g h hN hf
    obtain ⟨i, j⟩ := q
    have hj : j < N := hN (i, j) (by simp)
    have h1 := hf j
    simp only [List.filter_cons, beq_self_eq_true, if_true, List.map_cons] at h1
    obtain ⟨c', hc'⟩ : ∃ c', c j = c' + 1 := by
      cases hc : c j with
      | zero => rw [hc] at h1; simp at h1
      | succ c' => exact ⟨c', rfl⟩
    rw [hc', List.range'_succ, List.cons.injEq] at h1
    obtain ⟨rfl, h1⟩ := h1
    have := ih (upd k j (k j + 1)) (upd c j c') _ (h.step (b := b) hj) (fun q hq => hN q (by simp [hq])) (by
      intro u
      by_cases e : u = j
      · subst e
        simp only [upd, if_true]; exact h1
      · have h2 := hf u
        have e' : (j == u) = false := by simp; exact fun h => e h.symm
        simp only [List.filter_cons, e', Bool.false_eq_true, if_false] at h2
        simp only [upd, e, if_false]; exact h2)
    refine Seen.congr (g := runItems b xa (fun j => own j (rs j)) ((k j, j) :: l) g) this fun u _ => ?_
    simp only [upd]
    by_cases e : u = j
    · subst e; simp only [if_true]; omega
    · simp only [e, if_false]

/-- Requests of one hook are executed in the order in which they were made. -/
theorem srt_filter (ra : Nat → Ref X Y M) (L : List (Nat × Nat)) (j : Nat) :
    ((srt ra L).filter fun q => q.2 == j) = L.filter fun q => q.2 == j := by
  unfold srt
  have h1 : ∀ (l : List ((Nat × Nat) × Int)), (∀ a ∈ l, a.2 = (ra a.1.2).prio) →
      (l.map Prod.fst).filter (fun q => q.2 == j) =
        ((l.filter fun a => a.2 == (ra j).prio).map Prod.fst).filter fun q => q.2 == j := by
    intro l
    induction l with
    | nil => intro _; rfl
    | cons a l ih =>
      intro ha
      have ih' := ih fun a' h => ha a' (by simp [h])
      by_cases e : a.1.2 = j
      · have : (a.2 == (ra j).prio) = true := by rw [ha a (by simp), e]; simp
        simp only [List.map_cons, List.filter_cons, this, if_true, ih']
      · have e' : (a.1.2 == j) = false := by simpa using e
        by_cases h2 : (a.2 == (ra j).prio) = true
        · simp only [List.map_cons, List.filter_cons, h2, if_true, e', Bool.false_eq_true, if_false, ih']
        · simp only [List.map_cons, List.filter_cons, h2, e', Bool.false_eq_true, if_false, ih']
  have hm : ∀ a ∈ L.map (fun q => (q, (ra q.2).prio)), a.2 = (ra a.1.2).prio := by
    intro a ha
    obtain ⟨q, _, rfl⟩ := List.mem_map.1 ha
    rfl
  rw [h1 _ (fun a ha => hm a ((Priority.sorted_perm _).mem_iff.1 ha)), Priority.sorted_filter, ← h1 _ hm,
    List.map_map]
  congr 1
  simp [Function.comp_def]

theorem filter_posts (j : Nat) (K : Nat) : ∀ a, ((posts b a K).filter fun q => q.2 == j).map Prod.fst =
    List.range' a (if b.pre.length ≤ j ∧ j < b.pre.length + b.post.length then K else 0) := by
  have one : ∀ (a s n : Nat), ((List.range' s n).map fun j => (a, j)).filter (fun q => q.2 == j) =
      if s ≤ j ∧ j < s + n then [(a, j)] else [] := by
    intro a s n
    induction n generalizing s with
    | zero => rw [if_neg (by omega)]; rfl
    | succ n ih =>
      rw [List.range'_succ, List.map_cons, List.filter_cons, ih]
      by_cases e : s = j
      · subst e
        simp only [beq_self_eq_true, if_true]
        rw [if_neg (by omega), if_pos (by omega)]
      · have : (s == j) = false := by simpa using e
        simp only [this, Bool.false_eq_true, if_false]
        by_cases h : s + 1 ≤ j ∧ j < s + 1 + n
        · rw [if_pos h, if_pos (by omega)]
        · rw [if_neg h, if_neg (by omega)]
  induction K with
  | zero => intro a; simp [posts_zero]
  | succ K ih =>
    intro a
    rw [posts_succ, List.filter_append, List.map_append, ih, one]
    by_cases h : b.pre.length ≤ j ∧ j < b.pre.length + b.post.length
    · rw [if_pos h, if_pos h, if_pos h, List.range'_succ]; rfl
    · rw [if_neg h, if_neg h, if_neg h]; rfl

theorem filter_pre (j a : Nat) : (((List.range' 0 b.pre.length).map fun j => (a, j)).filter fun q => q.2 == j).map
    Prod.fst = List.range' a (if j < b.pre.length then 1 else 0) := by
  generalize b.pre.length = n
  have one : ∀ (s n : Nat), (((List.range' s n).map fun j => (a, j)).filter (fun q => q.2 == j)).map Prod.fst =
      List.range' a (if s ≤ j ∧ j < s + n then 1 else 0) := by
    intro s n
    induction n generalizing s with
    | zero => rw [if_neg (by omega)]; rfl
    | succ n ih =>
      rw [List.range'_succ, List.map_cons, List.filter_cons]
      by_cases e : s = j
      · subst e
        simp only [beq_self_eq_true, if_true, List.map_cons]
        rw [ih, if_neg (by omega), if_pos (by omega)]; rfl
      · have : (s == j) = false := by simpa using e
        simp only [this, Bool.false_eq_true, if_false]
        rw [ih]
        by_cases h : s + 1 ≤ j ∧ j < s + 1 + n
        · rw [if_pos h, if_pos (by omega)]
        · rw [if_neg h, if_neg (by omega)]
  rw [one]
  simp

theorem mem_posts {a K : Nat} {q : Nat × Nat} (h : q ∈ posts b a K) : q.2 < b.pre.length + b.post.length := by
  unfold posts at h
  obtain ⟨i, _, h⟩ := List.mem_flatMap.1 h
  obtain ⟨j, hj, rfl⟩ := List.mem_map.1 h
  rw [List.mem_range'_1] at hj
  exact hj.2

/-- All models agree on call `i`. -/
def okAt (b : Bench X Y D (Nat → M)) (xa : Nat → X) (rs : Nat → Ref X Y M) (m : Nat → M) (ya : Nat → Y) (i : Nat) : Bool :=
  (List.range (b.pre.length + b.post.length)).all fun j => agrees b (ya i) (outOf xa rs m j i)

theorem okCalls_seen {k : Nat → Nat} {g : G Y D (Nat → M)} {a K : Nat}
    (h : Seen (b.pre.length + b.post.length) xa rs m k g)
    (hk : ∀ j < b.pre.length + b.post.length, a + K ≤ k j) :
    okCalls b ya a K g = (List.range' a K).all (okAt b xa rs m ya) := by
  unfold okCalls
  rw [Bool.eq_iff_iff, List.all_eq_true, List.all_eq_true]
  have key : ∀ i ∈ List.range' a K, (g.results i).all (agrees b (ya i)) = okAt b xa rs m ya i := by
    intro i hi
    rw [List.mem_range'_1] at hi
    unfold okAt
    rw [Bool.eq_iff_iff, List.all_eq_true, List.all_eq_true]
    constructor
    · intro h1 j hj
      rw [List.mem_range] at hj
      cases ho : outOf xa rs m j i with
      | none => rfl
      | some z => exact h1 _ ((h.results i z).2 ⟨j, hj, by have := hk j hj; omega, ho⟩)
    · intro h1 o ho
      cases o with
      | none => rfl
      | some z =>
        obtain ⟨j, hj, _, h3⟩ := (h.results i z).1 ho
        have := h1 j (List.mem_range.2 hj)
        rw [h3] at this
        exact this
  exact ⟨fun h i hi => by rw [← key i hi]; exact h i hi, fun h i hi => by rw [key i hi]; exact h i hi⟩

/-- Models with states of their own. -/
theorem models_own (cy : Nat → Nat) : Models b xs xa (fun j => own j (rs j)) ya
    (fun a a' => Seen (b.pre.length + b.post.length) xa rs m fun j => if j < b.pre.length then a else a')
    (okAt b xa rs m ya) cy where
  dut := fun d h => ⟨h.ref, h.results⟩
  flush := by
    intro a a' K g h1 h2 _ _ hI
    have := hI.items (b := b) (srt (fun j => own j (rs j)) (posts b a' K))
      (fun j => if j < b.pre.length then a else a')
      (fun j => if b.pre.length ≤ j ∧ j < b.pre.length + b.post.length then K else 0) g
      (fun q hq => mem_posts ((srt_perm _).mem_iff.1 hq)) (by
        intro j
        rw [srt_filter, filter_posts]
        by_cases h : j < b.pre.length
        · simp only [if_neg (show ¬ (b.pre.length ≤ j ∧ j < b.pre.length + b.post.length) by omega)]; rfl
        · rw [if_neg h])
    have hs := this.congr (k' := fun j => if j < b.pre.length then a else a' + K) (by
      intro j hj
      by_cases h : j < b.pre.length
      · simp only [h, if_true]; rw [if_neg (by omega)]; rfl
      · simp only [h, if_false]; rw [if_pos (by omega)])
    refine ⟨hs, okCalls_seen hs ?_⟩
    intro j hj
    split <;> omega
  both := by
    intro a K g h1 h2 _ _ _ hI
    have := hI.items (b := b) (srt (fun j => own j (rs j)) (((List.range' 0 b.pre.length).map fun j => (a, j)) ++
        posts b (a - K) K))
      (fun j => if j < b.pre.length then a else a - K)
      (fun j => if j < b.pre.length then 1 else if b.pre.length ≤ j ∧ j < b.pre.length + b.post.length then K else 0) g
      (fun q hq => by
        rcases List.mem_append.1 ((srt_perm _).mem_iff.1 hq) with h | h
        · obtain ⟨j, hj, rfl⟩ := List.mem_map.1 h
          rw [List.mem_range'_1] at hj
          show j < _
          omega
        · exact mem_posts h) (by
        intro j
        rw [srt_filter, List.filter_append, List.map_append, filter_pre, filter_posts]
        by_cases h : j < b.pre.length
        · rw [if_pos h, if_pos h, if_pos h, if_neg (by omega)]; simp
        · rw [if_neg h, if_neg h, if_neg h]; simp)
    have hs := this.congr (k' := fun j => if j < b.pre.length then a + 1 else a) (by
      intro j hj
      by_cases h : j < b.pre.length
      · simp only [h, if_true]
      · simp only [h, if_false]; rw [if_pos (by omega)]; omega)
    refine ⟨hs, okCalls_seen hs ?_⟩
    intro j hj
    split <;> omega

end Toffee.BenchMix
