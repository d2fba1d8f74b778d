import Verif.Model.Triggers

/-!
Properties C10, C11, C12 (and the per-coroutine part of C09): when triggers return, for every
infinite trace `tr` of what the coroutine sees at the call and after each clock event.
-/

namespace Toffee.Triggers

/-- Spec: `k` is the first index `≥ from` at which `p` holds. -/
def FirstFrom (start : Nat) (p : Nat → Prop) (k : Nat) : Prop :=
  start ≤ k ∧ p k ∧ ∀ j, start ≤ j → j < k → ¬ p j

/-! ### C09 (coroutine part) -/

theorem clockCycles_after {V : Type} (n : Int) (tr : Nat → V) (k : Nat) :
    (clockCycles V n).after tr k = if k < n.toNat then .wait (n.toNat - k - 1) else .done := by
  induction k with
  | zero =>
    show waitLoop id _ n.toNat (tr 0) = _
    cases hn : n.toNat <;> simp [waitLoop]
  | succ k ih =>
    rw [Trigger.after, ih]
    by_cases h : k < n.toNat
    · rw [if_pos h]
      show waitLoop id (fun _ => Res.done) (n.toNat - k - 1) _ = _
      by_cases h2 : k + 1 < n.toNat
      · rw [if_pos h2]
        have : n.toNat - k - 1 = (n.toNat - (k + 1) - 1) + 1 := by omega
        rw [this]; simp [waitLoop]
      · rw [if_neg h2, show n.toNat - k - 1 = 0 by omega]; rfl
    · rw [if_neg h, if_neg (by omega)]

/-- C09 (coroutine part).  `ClockCycles(item, n)` / `bundle.step(n)` returns after exactly `n` clock
events (immediately for `n ≤ 0`), whatever happens to the pins. -/
theorem C09_clockCycles_exact {V : Type} (n : Int) (tr : Nat → V) (k : Nat) :
    (clockCycles V n).returnsAt tr k ↔ (k : Int) = max n 0 := by
  unfold Trigger.returnsAt
  simp only [clockCycles_after]
  constructor
  · rintro ⟨h1, h2⟩
    have : ¬ k < n.toNat := by intro h; rw [if_pos h] at h1; cases h1
    rcases Nat.eq_zero_or_pos k with h0 | h0
    · omega
    · have := h2 (k - 1) (by omega)
      have : k - 1 < n.toNat := by
        apply Classical.byContradiction; intro h; rw [if_neg h] at this; exact this rfl
      omega
  · intro h
    refine ⟨by rw [if_neg (by omega)], ?_⟩
    intro j hj
    rw [if_pos (by omega)]; simp

/-! ### Polling triggers -/

/-- Common shape of `Value` and `Condition`. -/
theorem poll_after {V : Type} (p : V → Prop) [DecidablePred p] (d : Nat) (t : Trigger V Poll)
    (hs : ∀ v, t.start v = match d with
      | 0 => if p v then .done else .wait .polling
      | n + 1 => .wait (.delaying n))
    (hp : ∀ v, t.resume .polling v = if p v then .done else .wait .polling)
    (h0 : ∀ v, t.resume (.delaying 0) v = if p v then .done else .wait .polling)
    (hd : ∀ n v, t.resume (.delaying (n + 1)) v = .wait (.delaying n))
    (tr : Nat → V) (k : Nat) :
    (k < d → t.after tr k = .wait (.delaying (d - k - 1))) ∧
    (d ≤ k → (∀ j, d ≤ j → j ≤ k → ¬ p (tr j)) → t.after tr k = .wait .polling) ∧
    ((∃ j, d ≤ j ∧ j ≤ k ∧ p (tr j)) → t.after tr k = .done) := by
  induction k with
  | zero =>
    simp only [Trigger.after, hs]
    refine ⟨?_, ?_, ?_⟩
    · intro h; cases d with
      | zero => omega
      | succ d => simp
    · intro h hn; cases d with
      | zero => simp [hn 0 (Nat.le_refl _) (Nat.le_refl _)]
      | succ d => omega
    · rintro ⟨j, h1, h2, h3⟩
      have : j = 0 := by omega
      subst this
      cases d with
      | zero => simp [h3]
      | succ d => omega
  | succ k ih =>
    obtain ⟨ih1, ih2, ih3⟩ := ih
    simp only [Trigger.after]
    refine ⟨?_, ?_, ?_⟩
    · intro h
      rw [ih1 (by omega)]
      simp only
      rw [show d - k - 1 = (d - (k + 1) - 1) + 1 by omega, hd]
    · intro h hn
      by_cases hk : d ≤ k
      · rw [ih2 hk (fun j h1 h2 => hn j h1 (by omega))]
        simp [hp, hn (k + 1) h (Nat.le_refl _)]
      · rw [ih1 (by omega)]
        simp only
        rw [show d - k - 1 = 0 by omega, h0, if_neg (hn _ h (Nat.le_refl _))]
    · rintro ⟨j, h1, h2, h3⟩
      by_cases hj : ∃ j, d ≤ j ∧ j ≤ k ∧ p (tr j)
      · rw [ih3 hj]
      · have hjk : j = k + 1 := by
          apply Classical.byContradiction
          intro hne; exact hj ⟨j, h1, by omega, h3⟩
        subst hjk
        by_cases hk : d ≤ k
        · rw [ih2 hk (fun i a b c => hj ⟨i, a, b, c⟩)]
          simp [hp, h3]
        · rw [ih1 (by omega)]
          simp only
          rw [show d - k - 1 = 0 by omega, h0, if_pos h3]

theorem poll_returnsAt {V : Type} (p : V → Prop) [DecidablePred p] (d : Nat) (t : Trigger V Poll)
    (hs : ∀ v, t.start v = match d with
      | 0 => if p v then .done else .wait .polling
      | n + 1 => .wait (.delaying n))
    (hp : ∀ v, t.resume .polling v = if p v then .done else .wait .polling)
    (h0 : ∀ v, t.resume (.delaying 0) v = if p v then .done else .wait .polling)
    (hd : ∀ n v, t.resume (.delaying (n + 1)) v = .wait (.delaying n))
    (tr : Nat → V) (k : Nat) :
    t.returnsAt tr k ↔ FirstFrom d (fun j => p (tr j)) k := by
  have key : ∀ i, t.after tr i = .done ↔ ∃ j, d ≤ j ∧ j ≤ i ∧ p (tr j) := by
    intro i
    obtain ⟨a, b, c⟩ := poll_after p d t hs hp h0 hd tr i
    constructor
    · intro h
      apply Classical.byContradiction
      intro hn
      by_cases hi : d ≤ i
      · rw [b hi (fun j h1 h2 h3 => hn ⟨j, h1, h2, h3⟩)] at h; cases h
      · rw [a (by omega)] at h; cases h
    · exact c
  unfold Trigger.returnsAt FirstFrom
  rw [key]
  constructor
  · rintro ⟨⟨j, h1, h2, h3⟩, hn⟩
    have hjk : j = k := by
      apply Classical.byContradiction
      intro hne
      exact hn j (by omega) ((key j).2 ⟨j, h1, Nat.le_refl _, h3⟩)
    subst hjk
    exact ⟨h1, h3, fun i h4 h5 h6 => hn i h5 ((key i).2 ⟨i, h4, Nat.le_refl _, h6⟩)⟩
  · rintro ⟨h1, h2, h3⟩
    refine ⟨⟨k, h1, Nat.le_refl _, h2⟩, ?_⟩
    intro j hj hd'
    obtain ⟨i, a, b, c⟩ := (key j).1 hd'
    exact h3 i a (by omega) c

/-- C10, `Value(pin, target, delay)`: returns exactly at the first cycle `k ≥ delay` with the target
value (so it does not return if there is none). -/
theorem C10_value_earliest {V : Type} [DecidableEq V] (target : V) (delay : Int) (tr : Nat → V)
    (k : Nat) :
    (value target delay).returnsAt tr k ↔ FirstFrom delay.toNat (fun j => tr j = target) k := by
  apply poll_returnsAt (fun v => v = target)
  · intro v
    cases h : delay.toNat <;> simp [value, waitLoop, h]
  · intro v; by_cases h : v = target <;> simp [value, h]
  · intro v; by_cases h : v = target <;> simp [value, waitLoop, h]
  · intro n v; simp [value, waitLoop]

/-- C10, `Condition(item, f, delay)`. -/
theorem C10_condition_earliest {V : Type} (f : V → Bool) (delay : Int) (tr : Nat → V) (k : Nat) :
    (condition f delay).returnsAt tr k ↔ FirstFrom delay.toNat (fun j => f (tr j) = true) k := by
  apply poll_returnsAt (fun v => f v = true)
  · intro v
    cases h : delay.toNat <;> cases hf : f v <;> simp [condition, waitLoop, h, hf]
  · intro v; cases hf : f v <;> simp [condition, hf]
  · intro v; cases hf : f v <;> simp [condition, waitLoop, hf]
  · intro n v; simp [condition, waitLoop]

/-- C10, `AllValid(*pins, delay)` with at least one pin: returns exactly at the first cycle
`k ≥ delay` in which every pin has a non-zero value. -/
theorem C10_allValid_earliest (delay : Int) (tr : Nat → List (Option Int))
    (hpins : ∀ j, tr j ≠ []) (k : Nat) :
    (allValid delay).returnsAt tr k ↔
      FirstFrom delay.toNat (fun j => ∀ v ∈ tr j, ∃ x : Int, v = some x ∧ x ≠ 0) k := by
  have heq : ∀ l : List (Option Int), l.all truthy = true ↔ ∀ v ∈ l, ∃ x : Int, v = some x ∧ x ≠ 0 := by
    intro l
    rw [List.all_eq_true]
    constructor
    · intro h v hv
      have := h v hv
      cases v with
      | none => simp [truthy] at this
      | some x => exact ⟨x, rfl, by simpa [truthy] using this⟩
    · intro h v hv
      obtain ⟨x, rfl, hx⟩ := h v hv
      simpa [truthy] using hx
  -- replace the trigger by one that agrees on non-empty pin lists
  let t' : Trigger (List (Option Int)) Poll := condition (fun l => l.all truthy) delay
  have hsame : ∀ i, (allValid delay).after tr i = t'.after tr i := by
    intro i
    induction i with
    | zero =>
      show (allValid delay).start (tr 0) = t'.start (tr 0)
      cases h : delay.toNat <;> simp [allValid, t', condition, waitLoop, waitFirst, hpins, h]
    | succ i ih =>
      simp only [Trigger.after, ih]
      cases t'.after tr i with
      | wait s =>
        show (allValid delay).resume s (tr (i + 1)) = t'.resume s (tr (i + 1))
        match s with
        | .delaying 0 => simp [allValid, t', condition, waitLoop, waitFirst, hpins]
        | .delaying (n + 1) => simp [allValid, t', condition, waitLoop, waitFirst, hpins]
        | .polling => simp [allValid, t', condition, waitFirst, hpins]
      | done => rfl
      | raise m => rfl
  have : (allValid delay).returnsAt tr k ↔ t'.returnsAt tr k := by
    unfold Trigger.returnsAt; simp only [hsame]
  rw [this, C10_condition_earliest]
  unfold FirstFrom
  simp only [heq]

/-- C10, `AllValid()` without pins and a positive delay raises instead of waiting. -/
theorem C10_allValid_no_pins (delay : Int) (h : 0 < delay) (tr : Nat → List (Option Int))
    (h0 : tr 0 = []) (k : Nat) : ∃ m, (allValid delay).after tr k = .raise m := by
  have hd : ∃ n, delay.toNat = n + 1 := ⟨delay.toNat - 1, by omega⟩
  obtain ⟨n, hn⟩ := hd
  have hstart : (allValid delay).after tr 0 = .raise "IndexError" := by
    simp [Trigger.after, allValid, hn, waitFirst, h0]
  induction k with
  | zero => exact ⟨_, hstart⟩
  | succ k ih => obtain ⟨m, hm⟩ := ih; exact ⟨m, by simp [Trigger.after, hm]⟩

/-! ### Change and edges -/

theorem change_after {V : Type} [DecidableEq V] (tr : Nat → V) (k : Nat) :
    ((∀ j, j ≤ k → tr j = tr 0) → change.after tr k = .wait (tr 0)) ∧
    ((∃ j, j ≤ k ∧ tr j ≠ tr 0) → change.after tr k = .done) := by
  induction k with
  | zero =>
    refine ⟨fun _ => by simp [Trigger.after, change], ?_⟩
    rintro ⟨j, h1, h2⟩
    have : j = 0 := by omega
    subst this; exact absurd rfl h2
  | succ k ih =>
    refine ⟨?_, ?_⟩
    · intro h
      rw [Trigger.after, ih.1 (fun j hj => h j (by omega))]
      simp [change, h (k + 1) (Nat.le_refl _)]
    · rintro ⟨j, h1, h2⟩
      by_cases hj : ∃ j, j ≤ k ∧ tr j ≠ tr 0
      · rw [Trigger.after, ih.2 hj]
      · have hall : ∀ i, i ≤ k → tr i = tr 0 := fun i hi =>
          Classical.byContradiction fun hne => hj ⟨i, hi, hne⟩
        have : j = k + 1 := by
          apply Classical.byContradiction
          intro hne; exact h2 (hall j (by omega))
        subst this
        rw [Trigger.after, ih.1 hall]
        simp [change, h2]

/-- C11.  `Change(pin)` returns exactly at the first cycle whose value differs from the value at the
call. -/
theorem C11_change_earliest {V : Type} [DecidableEq V] (tr : Nat → V) (k : Nat) :
    change.returnsAt tr k ↔ FirstFrom 1 (fun j => tr j ≠ tr 0) k := by
  have key : ∀ i, change.after tr i = .done ↔ ∃ j, j ≤ i ∧ tr j ≠ tr 0 := by
    intro i
    refine ⟨fun h => ?_, (change_after tr i).2⟩
    apply Classical.byContradiction
    intro hn
    rw [(change_after tr i).1 (fun j hj => Classical.byContradiction fun hne => hn ⟨j, hj, hne⟩)] at h
    cases h
  unfold Trigger.returnsAt FirstFrom
  rw [key]
  constructor
  · rintro ⟨⟨j, h1, h2⟩, hn⟩
    have hjk : j = k := by
      apply Classical.byContradiction
      intro hne; exact hn j (by omega) ((key j).2 ⟨j, Nat.le_refl _, h2⟩)
    subst hjk
    refine ⟨?_, h2, fun i _ h4 h5 => hn i h4 ((key i).2 ⟨i, Nat.le_refl _, h5⟩)⟩
    rcases Nat.eq_zero_or_pos j with h | h
    · subst h; exact absurd rfl h2
    · exact h
  · rintro ⟨h1, h2, h3⟩
    refine ⟨⟨k, Nat.le_refl _, h2⟩, fun j hj hd => ?_⟩
    obtain ⟨i, a, b⟩ := (key j).1 hd
    rcases Nat.eq_zero_or_pos i with h | h
    · subst h; exact b rfl
    · exact h3 i h (by omega) b

/-- Common shape of the two edge triggers: `edge a b` says that `a` then `b` is the edge. -/
theorem edge_after (edge : Int → Int → Prop) (t : Trigger Int Int)
    (hs : ∀ v, t.start v = .wait v)
    (hr : ∀ old v, edge old v → t.resume old v = .done)
    (hr' : ∀ old v, ¬ edge old v → t.resume old v = .wait v)
    (tr : Nat → Int) (k : Nat) :
    ((∀ j, j + 1 ≤ k → ¬ edge (tr j) (tr (j + 1))) → t.after tr k = .wait (tr k)) ∧
    ((∃ j, j + 1 ≤ k ∧ edge (tr j) (tr (j + 1))) → t.after tr k = .done) := by
  induction k with
  | zero =>
    exact ⟨fun _ => hs _, by rintro ⟨j, h, _⟩; omega⟩
  | succ k ih =>
    refine ⟨?_, ?_⟩
    · intro h
      rw [Trigger.after, ih.1 (fun j hj => h j (by omega))]
      exact hr' _ _ (h k (Nat.le_refl _))
    · rintro ⟨j, h1, h2⟩
      by_cases hj : ∃ j, j + 1 ≤ k ∧ edge (tr j) (tr (j + 1))
      · rw [Trigger.after, ih.2 hj]
      · have : j = k := by
          apply Classical.byContradiction
          intro hne; exact hj ⟨j, by omega, h2⟩
        subst this
        rw [Trigger.after, ih.1 (fun i hi he => hj ⟨i, hi, he⟩)]
        exact hr _ _ h2

theorem edge_returnsAt (edge : Int → Int → Prop) (t : Trigger Int Int)
    (hs : ∀ v, t.start v = .wait v)
    (hr : ∀ old v, edge old v → t.resume old v = .done)
    (hr' : ∀ old v, ¬ edge old v → t.resume old v = .wait v)
    (tr : Nat → Int) (k : Nat) :
    t.returnsAt tr k ↔ FirstFrom 1 (fun j => edge (tr (j - 1)) (tr j)) k := by
  have key : ∀ i, t.after tr i = .done ↔ ∃ j, j + 1 ≤ i ∧ edge (tr j) (tr (j + 1)) := by
    intro i
    have h := edge_after edge t hs hr hr' tr i
    refine ⟨fun hd => ?_, h.2⟩
    apply Classical.byContradiction
    intro hn
    rw [h.1 (fun j hj he => hn ⟨j, hj, he⟩)] at hd
    cases hd
  unfold Trigger.returnsAt FirstFrom
  rw [key]
  constructor
  · rintro ⟨⟨j, h1, h2⟩, hn⟩
    have hjk : j + 1 = k := by
      apply Classical.byContradiction
      intro hne; exact hn (j + 1) (by omega) ((key _).2 ⟨j, Nat.le_refl _, h2⟩)
    subst hjk
    refine ⟨by omega, by simpa using h2, ?_⟩
    intro i h3 h4 h5
    refine hn i h4 ((key i).2 ⟨i - 1, by omega, ?_⟩)
    rwa [show i - 1 + 1 = i by omega]
  · rintro ⟨h1, h2, h3⟩
    refine ⟨⟨k - 1, by omega, ?_⟩, fun j hj hd => ?_⟩
    · rwa [show k - 1 + 1 = k by omega]
    · obtain ⟨i, a, b⟩ := (key j).1 hd
      exact h3 (i + 1) (by omega) (by omega) (by simpa using b)

/-- C12, `RisingEdge(pin)`: returns exactly at the first cycle `k ≥ 1` with value 0 in cycle `k-1`
and a non-zero value in cycle `k`. -/
theorem C12_risingEdge (tr : Nat → Int) (k : Nat) :
    risingEdge.returnsAt tr k ↔ FirstFrom 1 (fun j => tr (j - 1) = 0 ∧ tr j ≠ 0) k := by
  apply edge_returnsAt (fun a b => a = 0 ∧ b ≠ 0)
  · intro v; simp [risingEdge]
  · rintro old v ⟨rfl, h⟩; simp [risingEdge, h]
  · intro old v h
    by_cases h0 : old = 0
    · subst h0
      have : v = 0 := Classical.byContradiction fun hv => h ⟨rfl, hv⟩
      simp [risingEdge, this]
    · simp [risingEdge, h0]

/-- C12, `FallingEdge(pin)`: returns exactly at the first cycle `k ≥ 1` with a non-zero value in
cycle `k-1` and 0 in cycle `k`. -/
theorem C12_fallingEdge (tr : Nat → Int) (k : Nat) :
    fallingEdge.returnsAt tr k ↔ FirstFrom 1 (fun j => tr (j - 1) ≠ 0 ∧ tr j = 0) k := by
  apply edge_returnsAt (fun a b => a ≠ 0 ∧ b = 0)
  · intro v; simp [fallingEdge]
  · rintro old v ⟨h, rfl⟩; simp [fallingEdge, Ne.symm h]
  · intro old v h
    by_cases h0 : v = 0
    · subst h0
      have : old = 0 := Classical.byContradiction fun hv => h ⟨hv, rfl⟩
      simp [fallingEdge, this]
    · simp [fallingEdge, h0]

/-- No trigger returns when its event never happens (shown for `Value`; the `↔` theorems give the
same for the others). -/
theorem C10_value_never {V : Type} [DecidableEq V] (target : V) (delay : Int) (tr : Nat → V)
    (h : ∀ j, delay.toNat ≤ j → tr j ≠ target) (k : Nat) : ¬ (value target delay).returnsAt tr k := by
  rw [C10_value_earliest]; rintro ⟨h1, h2, _⟩; exact h k h1 h2

/-- Non-vacuity: concrete traces on which the triggers return. -/
example : (clockCycles Int 3).returnsAt (fun _ => 0) 3 := (C09_clockCycles_exact _ _ _).2 (by decide)
example : (value (5 : Int) 2).returnsAt (fun j => if j = 0 ∨ j ≥ 4 then 5 else 0) 4 := by
  rw [C10_value_earliest]
  refine ⟨by decide, by simp, ?_⟩
  intro j h1 h2
  have h1' : 2 ≤ j := h1
  have : ¬ (j = 0 ∨ j ≥ 4) := by omega
  simp [this]
example : risingEdge.returnsAt (fun j => if j = 3 then 7 else if j = 0 then 1 else 0) 3 := by
  rw [C12_risingEdge]
  refine ⟨by decide, by decide, ?_⟩
  intro j h1 h2
  have : j = 1 ∨ j = 2 := by omega
  rcases this with rfl | rfl <;> decide
example : fallingEdge.returnsAt (fun j => if j < 2 then 7 else 0) 2 := by
  rw [C12_fallingEdge]
  refine ⟨by decide, by decide, ?_⟩
  intro j h1 h2
  have : j = 1 := by omega
  subst this; decide
example : change.returnsAt (fun j => if j < 2 then (7 : Int) else 0) 2 := by
  rw [C11_change_earliest]
  refine ⟨by decide, by decide, ?_⟩
  intro j h1 h2
  have : j = 1 := by omega
  subst this; decide

end Toffee.Triggers
