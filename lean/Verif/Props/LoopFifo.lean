import Verif.Lemmas.LoopFifo
import Verif.Props.LoopCall
/-!
C85: tasks are started in the order of their creation, and none is starved.
-/

namespace Toffee.Props.LoopFifo

open Toffee.Loop

variable {σ G V : Type}

/-- Executions from `s0` in which task `a` has not run. -/
inductive Before (sys : Sys σ G V) (a : Nat) (s0 : St σ G V) : St σ G V → Prop where
  | refl : Before sys a s0 s0
  | step {s} (due : List Nat) : Before sys a s0 s → (∀ k, s.cur ≠ some (a, k)) →
      Before sys a s0 (step sys due s)

/-- An execution from `s0` that goes on forever (a loop that has stopped stays as it is). -/
structure Run (sys : Sys σ G V) (s0 : St σ G V) (seq : Nat → St σ G V) : Prop where
  zero : seq 0 = s0
  next : ∀ i, ∃ due, seq (i + 1) = step sys due (seq i)

section
variable {sys : Sys σ G V} {g : G} {k0 : σ}

theorem before_ahead {a b : Nat} {k : σ} {s0 s : St σ G V} (h0 : Reach sys g k0 s0)
    (ha : s0.st a = .ready k) (hb : s0.n ≤ b ∨ ∃ w, s0.st b = .pend w)
    (hs : Before sys a s0 s) :
    Reach sys g k0 s ∧ ((∃ m, Ahead a b k m s) ∨ s.cur = some (a, k)) := by
  induction hs with
  | refl => exact ⟨h0, .inl (Ahead.init h0 ha hb)⟩
  | @step s due hs hne ih =>
    obtain ⟨hr, h⟩ := ih
    refine ⟨.step due hr, ?_⟩
    rcases h with ⟨m, h⟩ | h
    · cases h.step hr hne due with
      | ran h _ => exact .inr h
      | exec t k1 hc h hc' => exact .inl ⟨_, h⟩
      | handle m' hm hc h => exact .inl ⟨_, h⟩
      | turn hc hb h _ _ => exact .inl ⟨_, h⟩
      | halt h' hs => rw [hs]; exact .inl ⟨_, h⟩
    · exact absurd h (hne _)

/-- C85: a task `a` that is ready to run (for example, was just created) runs before every task `b`
that is created later, and before every task that waits now, whatever the tasks do. -/
theorem C85_first_come (a b : Nat) (k : σ) (s0 s : St σ G V) (h0 : Reach sys g k0 s0)
    (ha : s0.st a = .ready k) (hb : s0.n ≤ b ∨ ∃ w, s0.st b = .pend w)
    (hs : Before sys a s0 s) (k' : σ) : s.cur ≠ some (b, k') := by
  have hab : a ≠ b := by
    rintro rfl
    rcases hb with hb | ⟨w, hb⟩
    · rw [(reach_inv h0).core.hborn a hb] at ha; cases ha
    · rw [hb] at ha; cases ha
  obtain ⟨_, ⟨m, h⟩ | h⟩ := before_ahead h0 ha hb hs
  · exact h.cur k'
  · rw [h]; intro h2; injection h2 with h2; injection h2 with h2 _; exact hab h2

/-- C85: of two tasks created one after the other (by whatever tasks), the second does not start before
the first. -/
theorem C85_in_order (t u : Nat) (k ka k1 kb : σ) (ca cb : Nat → σ) (s1 s2 s : St σ G V)
    (due due' : List Nat) (h1 : Reach sys g k0 s1) (hc1 : s1.cur = some (t, k))
    (hp1 : sys.prog k s1.g = .spawn ka ca) (h2 : Before sys s1.n (step sys due s1) s2)
    (hc2 : s2.cur = some (u, k1)) (hu : u ≠ s1.n) (hp2 : sys.prog k1 s2.g = .spawn kb cb)
    (hs : Before sys s1.n (step sys due' s2) s) (k' : σ) :
    (step sys due s1).orig s1.n = some ka ∧ (step sys due' s2).orig s2.n = some kb ∧
      s.cur ≠ some (s2.n, k') := by
  have e1 : step sys due s1 = exec t (.spawn ka ca) s1 := by unfold step; rw [hc1, ← hp1]
  have e2 : step sys due' s2 = exec u (.spawn kb cb) s2 := by unfold step; rw [hc2, ← hp2]
  refine ⟨by rw [e1]; exact upd_self .., by rw [e2]; exact upd_self .., ?_⟩
  have hst : (step sys due s1).st s1.n = .ready ka := by rw [e1]; exact upd_self ..
  have hn : (step sys due s1).n = s1.n + 1 := by rw [e1]; rfl
  have hle : (step sys due s1).n ≤ s2.n := by
    clear hs hp2 hc2 e2
    induction h2 with
    | refl => exact Nat.le_refl _
    | step d _ _ ih => exact Nat.le_trans ih (step_grows sys d _).mono
  have hne : ∀ k, s2.cur ≠ some (s1.n, k) := by
    intro k h
    rw [hc2] at h; injection h with h; injection h with h _; exact hu h
  have hall : Before sys s1.n (step sys due s1) s := by
    clear k'
    induction hs with
    | refl => exact .step due' h2 hne
    | step d _ hx ih => exact .step d ih hx
  exact C85_first_come s1.n s2.n ka _ s (.step due h1) hst (.inl hle) hall k'

theorem run_reach {s0 : St σ G V} {seq : Nat → St σ G V} (h0 : Reach sys g k0 s0)
    (hr : Run sys s0 seq) (i : Nat) : Reach sys g k0 (seq i) := by
  induction i with
  | zero => rw [hr.zero]; exact h0
  | succ i ih => obtain ⟨due, h⟩ := hr.next i; rw [h]; exact .step due ih

/-- C85: a task that is ready to run does run, unless a task runs forever without suspending or the loop
stops. -/
theorem C85_no_starvation (a : Nat) (k : σ) (s0 : St σ G V) (seq : Nat → St σ G V)
    (h0 : Reach sys g k0 s0) (ha : s0.st a = .ready k) (hr : Run sys s0 seq) :
    ∃ n, (seq n).cur = some (a, k) ∨ halted (seq n) ∨
      ∃ t, ∀ i, n ≤ i → ∃ k', (seq i).cur = some (t, k') := by
  have hnone : ∀ k', s0.cur ≠ some (a, k') := by
    intro k' h
    have := ((reach_inv h0).core.hcur a).2 (by rw [h]; rfl)
    rw [ha] at this; cases this
  obtain ⟨m, hm⟩ := Ahead.init (b := s0.n) h0 ha (.inl (Nat.le_refl _))
  have hab : ∀ i m, Ahead a s0.n k m (seq i) → (∀ k', (seq i).cur ≠ some (a, k')) →
      ∃ n, (seq n).cur = some (a, k) ∨ halted (seq n) ∨
        ∃ t, ∀ i, n ≤ i → ∃ k', (seq i).cur = some (t, k') := by
    intro i m
    induction m using Nat.strongRecOn generalizing i with
    | ind m ih =>
      -- the case that no task is running
      have idle : ∀ i, Ahead a s0.n k m (seq i) → (seq i).cur = none → (seq i).batch ≠ [] →
          ∃ n, (seq n).cur = some (a, k) ∨ halted (seq n) ∨
            ∃ t, ∀ i, n ≤ i → ∃ k', (seq i).cur = some (t, k') := by
        intro i h hc hb
        obtain ⟨due, hd⟩ := hr.next i
        cases h.step (run_reach h0 hr i) (by rw [hc]; simp) due with
        | ran h _ => exact ⟨i + 1, .inl (hd ▸ h)⟩
        | exec t k1 hc' _ _ => rw [hc] at hc'; cases hc'
        | handle m' hlt _ h' =>
          by_cases hx : ∃ k', (seq (i + 1)).cur = some (a, k')
          · obtain ⟨k', hx⟩ := hx
            have hi := reach_inv (run_reach h0 hr (i + 1))
            have := (hi.core.hcur a).2 (by rw [hx]; rfl)
            rw [hd, h'.st] at this; cases this
          · exact ih m' hlt (i + 1) (hd ▸ h') (fun k' e => hx ⟨k', e⟩)
        | turn _ hb' _ _ _ => exact absurd hb' hb
        | halt h' _ => exact ⟨i, .inr (.inl h')⟩
      have idle' : ∀ i, Ahead a s0.n k m (seq i) → (seq i).cur = none →
          ∃ n, (seq n).cur = some (a, k) ∨ halted (seq n) ∨
            ∃ t, ∀ i, n ≤ i → ∃ k', (seq i).cur = some (t, k') := by
        intro i h hc
        by_cases hb : (seq i).batch = []
        · obtain ⟨due, hd⟩ := hr.next i
          cases h.step (run_reach h0 hr i) (by rw [hc]; simp) due with
          | ran h hb' => exact absurd hb hb'
          | exec t k1 hc' _ _ => rw [hc] at hc'; cases hc'
          | handle m' hlt _ h' =>
            by_cases hx : ∃ k', (seq (i + 1)).cur = some (a, k')
            · obtain ⟨k', hx⟩ := hx
              have hi := reach_inv (run_reach h0 hr (i + 1))
              have := (hi.core.hcur a).2 (by rw [hx]; rfl)
              rw [hd, h'.st] at this; cases this
            · exact ih m' hlt (i + 1) (hd ▸ h') (fun k' e => hx ⟨k', e⟩)
          | turn _ _ h' hb' hc' => exact idle (i + 1) (hd ▸ h') (hd ▸ hc') (hd ▸ hb')
          | halt h' _ => exact ⟨i, .inr (.inl h')⟩
        · exact idle i h hc hb
      intro h hne
      cases hc : (seq i).cur with
      | none => exact idle' i h hc
      | some tk =>
        obtain ⟨t, k1⟩ := tk
        by_cases hf : ∀ j, i ≤ j → ∃ k', (seq j).cur = some (t, k')
        · exact ⟨i, .inr (.inr ⟨t, hf⟩)⟩
        · -- the task suspends some time
          have key : ∀ d, (∃ k', (seq (i + d)).cur = some (t, k')) ∧ Ahead a s0.n k m (seq (i + d)) ∨
              ∃ j, (seq j).cur = none ∧ Ahead a s0.n k m (seq j) := by
            intro d
            induction d with
            | zero => exact .inl ⟨⟨k1, hc⟩, h⟩
            | succ d ihd =>
              rcases ihd with ⟨⟨k', hk'⟩, hA⟩ | hj
              · obtain ⟨due, hd⟩ := hr.next (i + d)
                have hta : t ≠ a := by rintro rfl; exact hne _ hc
                have := hA.step (run_reach h0 hr (i + d))
                  (by rw [hk']; intro k'' e; injection e with e; injection e with e _; exact hta e) due
                cases this with
                | ran h' hb' =>
                  have hst : step sys due (seq (i + d)) = exec t (sys.prog k' (seq (i + d)).g)
                      (seq (i + d)) := by unfold step; rw [hk']
                  rcases (exec_app t (sys.prog k' (seq (i + d)).g) (seq (i + d))).cur with h1 | ⟨k2, h1⟩
                  · rw [hst, h1] at h'; cases h'
                  · rw [hst, h1] at h'; injection h' with h'; injection h' with h' _
                    exact absurd h' hta
                | exec t' k1' hc' hA' hc'' =>
                  rw [hk'] at hc'; injection hc' with hc'; injection hc' with hc' _
                  subst hc'
                  rw [← hd] at hA' hc''
                  rcases hc'' with hc'' | hc''
                  · exact .inr ⟨_, hc'', hA'⟩
                  · exact .inl ⟨hc'', hA'⟩
                | handle _ _ hc' _ => rw [hk'] at hc'; cases hc'
                | turn hc' _ _ _ _ => rw [hk'] at hc'; cases hc'
                | halt h' _ => have h2 := h'.2.1; rw [hk'] at h2; cases h2
              · exact .inr hj
          rw [Classical.not_forall] at hf
          obtain ⟨j, hj⟩ := hf
          rw [Classical.not_imp] at hj
          obtain ⟨hj1, hj2⟩ := hj
          rcases key (j - i) with ⟨h1, _⟩ | ⟨j', h1, h2⟩
          · rw [show i + (j - i) = j by omega] at h1
            exact absurd h1 hj2
          · exact idle' j' h2 h1
  exact hab 0 m (by rw [hr.zero]; exact hm) (by rw [hr.zero]; exact hnone)

end

/-! ### A concrete system: the waiters of the driver call in `LoopCall` -/

section
open Toffee.Props.LoopCall (demo)

/-- The test at the creation of the first waiter (task 2); it goes on with that of the second (task 3). -/
def s1 : St LoopCall.K Nat Nat := iter demo 9 (init 0 .start)

example : Reach demo 0 .start s1 ∧ s1.cur = some (0, .sp []) ∧ s1.n = 2 ∧
    demo.prog (.sp []) s1.g = .spawn (.wt 5) (fun u => .sp [u]) ∧
    (step demo [] s1).cur = some (0, .sp [2]) ∧
    demo.prog (.sp [2]) (step demo [] s1).g = .spawn (.wt 6) (fun u => .sp [2, u]) :=
  ⟨reach_iter 9 .init, by decide +kernel, by decide +kernel, rfl, by decide +kernel, rfl⟩

/-- Task 2 runs 9 turns later, task 3 another 2 turns later. -/
example : (iter demo 9 s1).cur = some (2, .wt 5) ∧ (iter demo 11 s1).cur = some (3, .wt 6) ∧
    ∀ i, i < 11 → (iter demo i s1).cur.map (·.1) ≠ some 3 := by decide +kernel

example : Run demo s1 (fun i => iter demo i s1) :=
  ⟨rfl, fun i => ⟨[], by
    show iter demo (i + 1) s1 = _
    generalize s1 = s
    induction i generalizing s with
    | zero => rfl
    | succ i ih => exact ih (step demo [] s)⟩⟩

end

end Toffee.Props.LoopFifo
