import Verif.Lemmas.LFSR

/-!
Properties C01 and C02: the 64-bit LFSR.
`randAfter seed n` is the generator after `LFSR_64(seed)` and `n` calls of `step()`;
`rand` is its output.
-/

namespace Toffee.LFSR

/-- C01.  Whatever the seed and however often `step` was called, `rand` is a 64-bit value. -/
theorem C01_rand_is_64_bit (seed : Int) (n : Nat) : rand (randAfter seed n) < 2 ^ 64 :=
  randAfter_lt seed n

/-- Non-vacuity for C01: negative and over-wide seeds, and a step that feeds the top bit. -/
example : rand (randAfter (-1) 0) = 2 ^ 64 - 1 ∧ rand (randAfter (2 ^ 64 + 1) 1) = 2 ^ 63 := by
  decide

/-- C02, period.  For a seed whose low 64 bits are not all zero, the outputs after `m` and `n`
steps coincide exactly when `m` and `n` differ by a multiple of `2^64 - 1`. -/
theorem C02_period (seed : Int) (hseed : ¬ (2 : Int) ^ 64 ∣ seed) (m n : Nat) :
    rand (randAfter seed m) = rand (randAfter seed n) ↔
      (2 ^ 64 - 1 : Int) ∣ (m : Int) - (n : Int) := by
  have h0 : (init seed).state ≠ 0 := by
    intro h
    apply hseed
    apply Int.dvd_of_emod_eq_zero
    have h1 := Int.emod_nonneg seed (show (2 : Int) ^ 64 ≠ 0 by decide)
    unfold init at h; simp only at h; omega
  have hr : ∀ a b, rand (randAfter seed a) = rand (randAfter seed b) ↔
      randAfter seed a = randAfter seed b := by
    intro a b
    constructor
    · intro h
      cases hx : randAfter seed a; cases hy : randAfter seed b
      simp_all [rand]
    · intro h; rw [h]
  have hN : ((N : Nat) : Int) = 2 ^ 64 - 1 := by decide
  rw [hr, ← hN]
  rcases Nat.le_total n m with h | h
  · obtain ⟨d, rfl⟩ := Nat.exists_eq_add_of_le h
    rw [states_eq_iff seed h0]
    rw [show ((n + d : Nat) : Int) - (n : Int) = ((d : Nat) : Int) by omega]
    exact Int.natCast_dvd_natCast.symm
  · obtain ⟨d, rfl⟩ := Nat.exists_eq_add_of_le h
    rw [eq_comm, states_eq_iff seed h0]
    rw [show (m : Int) - ((m + d : Nat) : Int) = -((d : Nat) : Int) by omega, Int.dvd_neg]
    exact Int.natCast_dvd_natCast.symm

/-- C02, never zero.  A non-zero seed never reaches the stuck state. -/
theorem C02_never_zero (seed : Int) (hseed : ¬ (2 : Int) ^ 64 ∣ seed) (n : Nat) :
    rand (randAfter seed n) ≠ 0 := by
  intro h
  have h1 : rand (randAfter seed (n + 1)) = rand (randAfter seed n) := by
    have h' : (randAfter seed n).state = 0 := h
    show (step (randAfter seed n)).state = (randAfter seed n).state
    simp [step, getBit, h']
  have := (C02_period seed hseed (n + 1) n).1 h1
  rw [show ((n + 1 : Nat) : Int) - (n : Int) = 1 by omega] at this
  exact absurd this (by decide)

/-- C02, coverage.  Within one period every non-zero 64-bit value is produced exactly once. -/
theorem C02_visits_every_value_once (seed : Int) (hseed : ¬ (2 : Int) ^ 64 ∣ seed) (v : Nat)
    (hv0 : 0 < v) (hv : v < 2 ^ 64) :
    ∃ n, (n < 2 ^ 64 - 1 ∧ rand (randAfter seed n) = v) ∧
      ∀ n', n' < 2 ^ 64 - 1 ∧ rand (randAfter seed n') = v → n' = n := by
  have hpos : ∀ n, 0 < rand (randAfter seed n) := fun n =>
    Nat.pos_of_ne_zero (C02_never_zero seed hseed n)
  have hlt : ∀ n, rand (randAfter seed n) < 2 ^ 64 := C01_rand_is_64_bit seed
  have inj : ∀ a b, a < 2 ^ 64 - 1 → b < 2 ^ 64 - 1 →
      rand (randAfter seed a) = rand (randAfter seed b) → a = b := by
    intro a b ha hb h
    obtain ⟨k, hk⟩ := (C02_period seed hseed a b).1 h
    have hk0 : k = 0 := by omega
    subst hk0; omega
  let f : Fin (2 ^ 64 - 1) → Fin (2 ^ 64 - 1) := fun n =>
    ⟨rand (randAfter seed n) - 1, by have := hpos n; have := hlt n; omega⟩
  have hf : Function.Injective f := by
    intro a b hab
    have h1 : rand (randAfter seed a) - 1 = rand (randAfter seed b) - 1 := congrArg Fin.val hab
    have ha := hpos a; have hb := hpos b
    exact Fin.ext (inj a b a.2 b.2 (by omega))
  obtain ⟨n, hn⟩ := (Finite.injective_iff_surjective.1 hf) ⟨v - 1, by omega⟩
  have h1 : rand (randAfter seed n) - 1 = v - 1 := congrArg Fin.val hn
  have hp := hpos n
  refine ⟨n, ⟨n.2, by omega⟩, ?_⟩
  rintro n' ⟨hn', hv'⟩
  exact inj n' n hn' n.2 (by omega)

/-- C02, zero seed.  A seed whose low 64 bits are all zero yields 0 for ever. -/
theorem C02_zero_seed_stuck (seed : Int) (hseed : (2 : Int) ^ 64 ∣ seed) (n : Nat) :
    rand (randAfter seed n) = 0 := by
  induction n with
  | zero =>
    have := Int.emod_eq_zero_of_dvd hseed
    show (seed % 2 ^ 64).toNat = 0
    rw [this]; rfl
  | succ n ih =>
    have h' : (randAfter seed n).state = 0 := ih
    show (step (randAfter seed n)).state = 0
    simp [step, getBit, h']

/-- Non-vacuity for C02: the default seed 1 is admissible, and both kinds of seed exist. -/
example : ¬ (2 : Int) ^ 64 ∣ 1 ∧ (2 : Int) ^ 64 ∣ 2 ^ 64 := by decide

end Toffee.LFSR
