import Verif.Model.LFSR
import Mathlib.Data.Nat.Prime.Basic
import Mathlib.Data.Fintype.EquivFin
import Mathlib.Tactic.NormNum.Prime

/-!
Helper lemmas for the 64-bit LFSR: the sequence of low bits satisfies the linear recurrence
`u (n+64) = u n + u (n+1) + u (n+3) + u (n+4)` over GF(2); polynomials over GF(2) (as natural
numbers) act on such sequences, and arithmetic modulo `x^64 + x^4 + x^3 + x + 1` computes the action.
-/

namespace Toffee.LFSR

theorem getBit_eq (l : LFSR) (x : Nat) : getBit l x = (l.state.testBit x).toNat := by
  unfold getBit
  rw [Nat.testBit_eq_decide_div_mod_eq, Nat.shiftRight_eq_div_pow, Nat.and_one_is_mod]
  rcases Nat.mod_two_eq_zero_or_one (l.state / 2 ^ x) with h | h <;> simp [h]

theorem step_testBit (l : LFSR) (h : l.state < 2 ^ 64) (i : Nat) :
    (step l).state.testBit i =
      if i < 63 then l.state.testBit (i + 1)
      else if i = 63 then
        (l.state.testBit 0 ^^ l.state.testBit 1 ^^ l.state.testBit 3 ^^ l.state.testBit 4)
      else false := by
  unfold step
  simp only [getBit_eq, Nat.testBit_or, Nat.testBit_shiftRight, Nat.testBit_shiftLeft]
  have hb : ∀ a b c d : Bool, (a.toNat ^^^ b.toNat ^^^ c.toNat ^^^ d.toNat)
      = (a ^^ b ^^ c ^^ d).toNat := by decide
  rw [hb]
  have hge : ∀ j, 64 ≤ j → l.state.testBit j = false := fun j hj =>
    Nat.testBit_lt_two_pow (lt_of_lt_of_le h (Nat.pow_le_pow_right (by decide) hj))
  split_ifs with h1 h2
  · have : ¬ i ≥ 63 := by omega
    simp [this, Nat.add_comm]
  · subst h2
    rw [hge (1 + 63) (by omega)]
    generalize (l.state.testBit 0 ^^ l.state.testBit 1 ^^ l.state.testBit 3 ^^ l.state.testBit 4) = b
    cases b <;> simp
  · rw [hge (1 + i) (by omega)]
    have hpos : i - 63 = (i - 64) + 1 := by omega
    rw [hpos]
    simp [Nat.testBit_succ]
    intro _
    have : ∀ b : Bool, b.toNat / 2 = 0 := by decide
    rw [this]; simp

theorem step_lt (l : LFSR) (h : l.state < 2 ^ 64) : (step l).state < 2 ^ 64 := by
  apply Nat.lt_pow_two_of_testBit
  intro i hi
  rw [step_testBit l h]
  rw [if_neg (by omega), if_neg (by omega)]

theorem init_lt (seed : Int) : (init seed).state < 2 ^ 64 := by
  unfold init
  have h1 := Int.emod_nonneg seed (show (2 : Int) ^ 64 ≠ 0 by decide)
  have h2 := Int.emod_lt_of_pos seed (show (0 : Int) < 2 ^ 64 by decide)
  simp only
  omega

theorem randAfter_lt (seed : Int) (n : Nat) : (randAfter seed n).state < 2 ^ 64 := by
  induction n with
  | zero => exact init_lt seed
  | succ n ih => exact step_lt _ ih

/-- The low-bit sequence. -/
def lowSeq (seed : Int) (n : Nat) : Bool := (randAfter seed n).state.testBit 0

theorem testBit_randAfter (seed : Int) (i : Nat) (hi : i < 64) :
    ∀ n, (randAfter seed n).state.testBit i = lowSeq seed (n + i) := by
  induction i with
  | zero => intro n; rfl
  | succ i ih =>
    intro n
    have := ih (by omega) (n + 1)
    rw [show n + (i + 1) = n + 1 + i by omega, ← this]
    show _ = (step (randAfter seed n)).state.testBit i
    rw [step_testBit _ (randAfter_lt seed n), if_pos (by omega)]

theorem lowSeq_rec (seed : Int) (n : Nat) :
    lowSeq seed (n + 64) =
      (lowSeq seed n ^^ lowSeq seed (n + 1) ^^ lowSeq seed (n + 3) ^^ lowSeq seed (n + 4)) := by
  have h : (randAfter seed (n + 1)).state.testBit 63 = lowSeq seed (n + 64) := by
    rw [testBit_randAfter seed 63 (by decide)]
  rw [← h]
  show (step (randAfter seed n)).state.testBit 63 = _
  rw [step_testBit _ (randAfter_lt seed n), if_neg (by decide), if_pos rfl,
    testBit_randAfter seed 0 (by decide), testBit_randAfter seed 1 (by decide),
    testBit_randAfter seed 3 (by decide), testBit_randAfter seed 4 (by decide)]
  rfl

theorem state_eq_iff (seed : Int) (m n : Nat) :
    randAfter seed m = randAfter seed n ↔
      ∀ i, i < 64 → lowSeq seed (m + i) = lowSeq seed (n + i) := by
  constructor
  · intro h i hi
    rw [← testBit_randAfter seed i hi, ← testBit_randAfter seed i hi, h]
  · intro h
    have : (randAfter seed m).state = (randAfter seed n).state := by
      apply Nat.eq_of_testBit_eq
      intro i
      by_cases hi : i < 64
      · rw [testBit_randAfter seed i hi, testBit_randAfter seed i hi, h i hi]
      · have hge : ∀ k, (randAfter seed k).state.testBit i = false := fun k =>
          Nat.testBit_lt_two_pow (lt_of_lt_of_le (randAfter_lt seed k)
            (Nat.pow_le_pow_right (by decide) (by omega)))
        rw [hge, hge]
    cases hx : randAfter seed m; cases hy : randAfter seed n
    simp_all

/-! ### GF(2) polynomials acting on sequences -/

/-- A sequence satisfying the feedback recurrence. -/
def Rec (u : Nat → Bool) : Prop :=
  ∀ n, u (n + 64) = (u n ^^ u (n + 1) ^^ u (n + 3) ^^ u (n + 4))

/-- Action of the low `k` coefficients of the polynomial `p` on a sequence. -/
def act : Nat → Nat → (Nat → Bool) → Nat → Bool
  | 0, _, _, _ => false
  | k + 1, p, u, n => ((p.testBit 0 && u n) ^^ act k (p >>> 1) u (n + 1))

theorem act_zero (k : Nat) (u : Nat → Bool) (n : Nat) : act k 0 u n = false := by
  induction k generalizing n with
  | zero => rfl
  | succ k ih => simp [act, ih]

theorem act_xor (k p q : Nat) (u : Nat → Bool) (n : Nat) :
    act k (p ^^^ q) u n = (act k p u n ^^ act k q u n) := by
  induction k generalizing p q n with
  | zero => rfl
  | succ k ih =>
    simp only [act, Nat.testBit_xor, Nat.shiftRight_xor_distrib, ih]
    cases p.testBit 0 <;> cases q.testBit 0 <;> cases u n <;>
      cases act k (p >>> 1) u (n + 1) <;> cases act k (q >>> 1) u (n + 1) <;> rfl

theorem act_shift (k p : Nat) (u : Nat → Bool) (n : Nat) :
    act (k + 1) (p <<< 1) u n = act k p u (n + 1) := by
  have h : (p <<< 1).testBit 0 = false := by simp
  have h2 : (p <<< 1) >>> 1 = p := by
    simp [Nat.shiftLeft_eq, Nat.shiftRight_eq_div_pow]
  simp [act, h, h2]

theorem act_ext (k p : Nat) (hp : p < 2 ^ k) (u : Nat → Bool) (n : Nat) :
    act (k + 1) p u n = act k p u n := by
  induction k generalizing p n with
  | zero =>
    have : p = 0 := by omega
    subst this; rw [act_zero, act_zero]
  | succ k ih =>
    rw [act, ih (p >>> 1) (by
      rw [Nat.shiftRight_eq_div_pow]
      have : 2 ^ (k + 1) = 2 * 2 ^ k := by rw [Nat.pow_succ]; omega
      omega)]
    rfl

theorem act_seq_xor (k p : Nat) (u v : Nat → Bool) (n : Nat) :
    act k p (fun m => u m ^^ v m) n = (act k p u n ^^ act k p v n) := by
  induction k generalizing p n with
  | zero => rfl
  | succ k ih =>
    simp only [act, ih]
    cases p.testBit 0 <;> cases u n <;> cases v n <;>
      cases act k (p >>> 1) u (n + 1) <;> cases act k (p >>> 1) v (n + 1) <;> rfl

theorem act_seq_shift (k p d : Nat) (u : Nat → Bool) (n : Nat) :
    act k p (fun m => u (m + d)) n = act k p u (n + d) := by
  induction k generalizing p n with
  | zero => rfl
  | succ k ih => simp only [act, ih, Nat.add_right_comm n 1 d]

theorem Rec_act (k p : Nat) (u : Nat → Bool) (hu : Rec u) : Rec (act k p u) := by
  intro n
  have e : (fun m => u (m + 64)) =
      (fun m => u m ^^ u (m + 1) ^^ u (m + 3) ^^ u (m + 4)) := by
    funext m; exact hu m
  rw [← act_seq_shift k p 64, e]
  rw [act_seq_xor k p (fun m => u m ^^ u (m + 1) ^^ u (m + 3)) (fun m => u (m + 4)),
    act_seq_xor k p (fun m => u m ^^ u (m + 1)) (fun m => u (m + 3)),
    act_seq_xor k p u (fun m => u (m + 1)),
    act_seq_shift, act_seq_shift, act_seq_shift]

/-- The feedback polynomial `x^64 + x^4 + x^3 + x + 1`. -/
def fb : Nat := 18446744073709551643

theorem act_fb (u : Nat → Bool) (hu : Rec u) (n : Nat) : act 65 fb u n = false := by
  have h : act 65 fb u n
      = (u n ^^ (u (n + 1) ^^ (u (n + 3) ^^ (u (n + 4) ^^ u (n + 64))))) := by
    simp [act, fb]
  rw [h, hu n]
  cases u n <;> cases u (n + 1) <;> cases u (n + 3) <;> cases u (n + 4) <;> rfl

/-- Multiplication by `x` modulo the feedback polynomial. -/
def xtime (a : Nat) : Nat :=
  bif Nat.testBit (a <<< 1) 64 then (a <<< 1) ^^^ fb else a <<< 1

theorem xtime_lt (a : Nat) (h : a < 2 ^ 64) : xtime a < 2 ^ 64 := by
  have h65 : a <<< 1 < 2 ^ 65 := by rw [Nat.shiftLeft_eq]; omega
  unfold xtime
  cases hb : Nat.testBit (a <<< 1) 64
  · simp only [cond_false]
    apply Nat.lt_pow_two_of_testBit
    intro i hi
    by_cases h' : i = 64
    · rw [h', hb]
    · exact Nat.testBit_lt_two_pow (lt_of_lt_of_le h65 (Nat.pow_le_pow_right (by decide) (by omega)))
  · simp only [cond_true]
    apply Nat.lt_pow_two_of_testBit
    intro i hi
    rw [Nat.testBit_xor]
    by_cases h' : i = 64
    · subst h'; rw [hb]; decide
    · rw [Nat.testBit_lt_two_pow (lt_of_lt_of_le h65 (Nat.pow_le_pow_right (by decide) (by omega))),
        Nat.testBit_lt_two_pow (lt_of_lt_of_le (show fb < 2 ^ 65 by decide)
          (Nat.pow_le_pow_right (by decide) (by omega)))]
      rfl

theorem act_xtime (a : Nat) (h : a < 2 ^ 64) (u : Nat → Bool) (hu : Rec u) (n : Nat) :
    act 64 (xtime a) u n = act 64 a u (n + 1) := by
  rw [← act_shift, ← act_ext 64 (xtime a) (xtime_lt a h)]
  unfold xtime
  cases Nat.testBit (a <<< 1) 64
  · rfl
  · simp only [cond_true]
    rw [act_xor, act_fb u hu]; simp

/-- `force n f = f n`, but kernel reduction evaluates `n` to a literal first. -/
def force {α : Type} (n : Nat) (f : Nat → α) : α := Nat.rec (f 0) (fun k _ => f (k + 1)) n

theorem force_eq {α : Type} (n : Nat) (f : Nat → α) : force n f = f n := by
  cases n <;> rfl

/-- Multiplication modulo the feedback polynomial, Horner over the low `k` bits of `a`. -/
def mulK : Nat → Nat → Nat → Nat
  | 0, _, _ => 0
  | k + 1, a, b =>
    force (a >>> 1) fun a' => force (mulK k a' b) fun r =>
      xtime r ^^^ (bif a.testBit 0 then b else 0)

theorem mulK_succ (k a b : Nat) :
    mulK (k + 1) a b = xtime (mulK k (a >>> 1) b) ^^^ (bif a.testBit 0 then b else 0) := by
  rw [mulK, force_eq, force_eq]

theorem mulK_lt (k a b : Nat) (hb : b < 2 ^ 64) : mulK k a b < 2 ^ 64 := by
  induction k generalizing a with
  | zero => simp [mulK]
  | succ k ih =>
    rw [mulK_succ]
    apply Nat.xor_lt_two_pow (xtime_lt _ (ih _))
    cases a.testBit 0
    · simp
    · simpa using hb

theorem act_mulK (k a b : Nat) (hb : b < 2 ^ 64) (u : Nat → Bool) (hu : Rec u) (n : Nat) :
    act 64 (mulK k a b) u n = act k a (act 64 b u) n := by
  induction k generalizing a n with
  | zero => simp [mulK, act]
  | succ k ih =>
    rw [mulK_succ]
    rw [act_xor, act_xtime _ (mulK_lt _ _ _ hb) u hu, ih, act, Bool.xor_comm]
    congr 1
    cases a.testBit 0
    · simp [act_zero]
    · simp only [cond_true, Bool.true_and]
      rfl

def mul (a b : Nat) : Nat := mulK 64 a b

/-- `x^e` modulo the feedback polynomial for `e < 2^k`. -/
def xpow : Nat → Nat → Nat
  | 0, _ => 1
  | k + 1, e =>
    force (e >>> 1) fun e' => force (xpow k e') fun r => force (mul r r) fun s =>
      bif e.testBit 0 then xtime s else s

theorem xpow_succ (k e : Nat) :
    xpow (k + 1) e = bif e.testBit 0 then xtime (mul (xpow k (e >>> 1)) (xpow k (e >>> 1)))
      else mul (xpow k (e >>> 1)) (xpow k (e >>> 1)) := by
  rw [xpow, force_eq, force_eq, force_eq]

theorem xpow_lt (k e : Nat) : xpow k e < 2 ^ 64 := by
  induction k generalizing e with
  | zero => rw [xpow]; decide
  | succ k ih =>
    rw [xpow_succ]
    have hs : mul (xpow k (e >>> 1)) (xpow k (e >>> 1)) < 2 ^ 64 := mulK_lt _ _ _ (ih _)
    cases e.testBit 0
    · simpa using hs
    · simpa using xtime_lt _ hs

theorem act_one (u : Nat → Bool) (n : Nat) : act 64 1 u n = u n := by
  show ((Nat.testBit 1 0 && u n) ^^ act 63 (1 >>> 1) u (n + 1)) = u n
  rw [show (1 >>> 1 : Nat) = 0 from rfl, act_zero]; simp

theorem act_xpow (k e : Nat) (he : e < 2 ^ k) (u : Nat → Bool) (hu : Rec u) (n : Nat) :
    act 64 (xpow k e) u n = u (n + e) := by
  induction k generalizing e u n with
  | zero =>
    have : e = 0 := by omega
    subst this; rw [xpow, act_one]; rfl
  | succ k ih =>
    have he2 : e >>> 1 < 2 ^ k := by
      rw [Nat.shiftRight_eq_div_pow]
      have : 2 ^ (k + 1) = 2 * 2 ^ k := by rw [Nat.pow_succ]; omega
      omega
    have hm : ∀ n, act 64 (mul (xpow k (e >>> 1)) (xpow k (e >>> 1))) u n
        = u (n + 2 * (e >>> 1)) := by
      intro n
      rw [mul, act_mulK _ _ _ (xpow_lt _ _) u hu, ih _ he2 _ (Rec_act _ _ _ hu), ih _ he2 _ hu]
      congr 1; omega
    have hdiv : e >>> 1 = e / 2 := by rw [Nat.shiftRight_eq_div_pow]
    rw [xpow_succ]
    cases hb : e.testBit 0
    · simp only [cond_false, hm]
      have : e % 2 = 0 := by simpa [Nat.testBit_zero] using hb
      congr 1; omega
    · simp only [cond_true]
      rw [act_xtime (mul _ _) (mulK_lt _ _ _ (xpow_lt _ _)) u hu, hm]
      have : e % 2 = 1 := by simpa [Nat.testBit_zero] using hb
      congr 1; omega

/-- The order of the multiplicative group of GF(2^64). -/
def N : Nat := 18446744073709551615

theorem xpow_N : xpow 64 N = 1 := by decide +kernel

/-- For each prime factor `q` of `2^64-1`: `x^((2^64-1)/q) + 1` is invertible. -/
theorem xpow_inv :
    mul 1858076378458151938 (xpow 64 (N / 3) ^^^ 1) = 1 ∧
    mul 13279093613986655127 (xpow 64 (N / 5) ^^^ 1) = 1 ∧
    mul 88670320258251612 (xpow 64 (N / 17) ^^^ 1) = 1 ∧
    mul 17062698742014672638 (xpow 64 (N / 257) ^^^ 1) = 1 ∧
    mul 6878206139421252571 (xpow 64 (N / 641) ^^^ 1) = 1 ∧
    mul 169927546495942853 (xpow 64 (N / 65537) ^^^ 1) = 1 ∧
    mul 13712154023323248779 (xpow 64 (N / 6700417) ^^^ 1) = 1 := by
  decide +kernel

theorem no_short_period (u : Nat → Bool) (hu : Rec u) (d inv : Nat) (hd : d < 2 ^ 64)
    (hinv : mul inv (xpow 64 d ^^^ 1) = 1) (hper : ∀ n, u (n + d) = u n) : ∀ n, u n = false := by
  intro n
  have hz : act 64 (xpow 64 d ^^^ 1) u = fun _ => false := by
    funext m
    rw [act_xor, act_one, act_xpow 64 d hd u hu, hper]; simp
  have : act 64 (mul inv (xpow 64 d ^^^ 1)) u n = false := by
    rw [mul, act_mulK _ _ _ (Nat.xor_lt_two_pow (xpow_lt _ _) (by decide)) u hu, hz]
    have : ∀ k p m, act k p (fun _ => false) m = false := by
      intro k
      induction k with
      | zero => intro p m; rfl
      | succ k ih => intro p m; simp [act, ih]
    exact this _ _ _
  rwa [hinv, act_one] at this

theorem period_N (u : Nat → Bool) (hu : Rec u) (n : Nat) : u (n + N) = u n := by
  rw [← act_xpow 64 N (by decide) u hu, xpow_N, act_one]

theorem prime_dvd_N (q : Nat) (hq : q.Prime) (h : q ∣ N) :
    q = 3 ∨ q = 5 ∨ q = 17 ∨ q = 257 ∨ q = 641 ∨ q = 65537 ∨ q = 6700417 := by
  have hN : N = 3 * (5 * (17 * (257 * (641 * (65537 * 6700417))))) := by decide
  have p1 : Nat.Prime 3 := by norm_num
  have p2 : Nat.Prime 5 := by norm_num
  have p3 : Nat.Prime 17 := by norm_num
  have p4 : Nat.Prime 257 := by norm_num
  have p5 : Nat.Prime 641 := by norm_num
  have p6 : Nat.Prime 65537 := by norm_num
  have p7 : Nat.Prime 6700417 := by norm_num
  rw [hN] at h
  rcases (Nat.Prime.dvd_mul hq).1 h with h | h
  · left; exact (Nat.prime_dvd_prime_iff_eq hq p1).1 h
  rcases (Nat.Prime.dvd_mul hq).1 h with h | h
  · right; left; exact (Nat.prime_dvd_prime_iff_eq hq p2).1 h
  rcases (Nat.Prime.dvd_mul hq).1 h with h | h
  · right; right; left; exact (Nat.prime_dvd_prime_iff_eq hq p3).1 h
  rcases (Nat.Prime.dvd_mul hq).1 h with h | h
  · right; right; right; left; exact (Nat.prime_dvd_prime_iff_eq hq p4).1 h
  rcases (Nat.Prime.dvd_mul hq).1 h with h | h
  · right; right; right; right; left; exact (Nat.prime_dvd_prime_iff_eq hq p5).1 h
  rcases (Nat.Prime.dvd_mul hq).1 h with h | h
  · right; right; right; right; right; left; exact (Nat.prime_dvd_prime_iff_eq hq p6).1 h
  · right; right; right; right; right; right; exact (Nat.prime_dvd_prime_iff_eq hq p7).1 h

theorem per_mul (u : Nat → Bool) (d : Nat) (h : ∀ n, u (n + d) = u n) (k n : Nat) :
    u (n + d * k) = u n := by
  induction k with
  | zero => rfl
  | succ k ih => rw [Nat.mul_succ, ← Nat.add_assoc, h, ih]

/-- A period together with `N` gives the gcd as a period. -/
theorem per_gcd (u : Nat → Bool) (a b : Nat) (ha : ∀ n, u (n + a) = u n)
    (hb : ∀ n, u (n + b) = u n) : ∀ n, u (n + Nat.gcd a b) = u n := by
  induction a, b using Nat.gcd.induction with
  | H0 b => simpa using hb
  | H1 a b hpos ih =>
    rw [Nat.gcd_rec]
    apply ih _ ha
    intro n
    have h1 := per_mul u a ha (b / a) (n + b % a)
    rw [← h1, Nat.add_assoc, Nat.mod_add_div, hb]

theorem all_zero_of_period (u : Nat → Bool) (hu : Rec u) (d : Nat) (hd : ¬ N ∣ d)
    (hper : ∀ n, u (n + d) = u n) : ∀ n, u n = false := by
  have hg := per_gcd u d N hper (period_N u hu)
  obtain ⟨k, hk⟩ := Nat.gcd_dvd_right d N
  have hk1 : k ≠ 1 := by
    intro h1
    rw [h1, Nat.mul_one] at hk
    exact hd (hk ▸ Nat.gcd_dvd_left d N)
  obtain ⟨q, hq, hqk⟩ := Nat.exists_prime_and_dvd hk1
  obtain ⟨m, hm⟩ := hqk
  have hNq : N = (Nat.gcd d N * m) * q := by
    rw [Nat.mul_assoc, Nat.mul_comm m q, ← hm]; exact hk
  have hdiv : N / q = Nat.gcd d N * m := by
    refine Nat.div_eq_of_eq_mul_left hq.pos hNq
  have hperq : ∀ n, u (n + N / q) = u n := by
    intro n; rw [hdiv]; exact per_mul u _ hg m n
  have hlt : N / q < 2 ^ 64 := lt_of_le_of_lt (Nat.div_le_self _ _) (by decide)
  obtain ⟨i1, i2, i3, i4, i5, i6, i7⟩ := xpow_inv
  rcases prime_dvd_N q hq ⟨_, hNq.trans (Nat.mul_comm _ _)⟩ with h | h | h | h | h | h | h <;> subst h
  · exact no_short_period u hu _ _ hlt i1 hperq
  · exact no_short_period u hu _ _ hlt i2 hperq
  · exact no_short_period u hu _ _ hlt i3 hperq
  · exact no_short_period u hu _ _ hlt i4 hperq
  · exact no_short_period u hu _ _ hlt i5 hperq
  · exact no_short_period u hu _ _ hlt i6 hperq
  · exact no_short_period u hu _ _ hlt i7 hperq

/-- Equal states give equal futures. -/
theorem randAfter_add (seed : Int) (m n k : Nat) (h : randAfter seed m = randAfter seed n) :
    randAfter seed (m + k) = randAfter seed (n + k) := by
  induction k with
  | zero => exact h
  | succ k ih => exact congrArg step ih

theorem lowSeq_all_false_iff (seed : Int) :
    (∀ n, lowSeq seed n = false) ↔ (init seed).state = 0 := by
  constructor
  · intro h
    apply Nat.eq_of_testBit_eq
    intro i
    rw [Nat.zero_testBit]
    by_cases hi : i < 64
    · have := testBit_randAfter seed i hi 0
      rw [h] at this; exact this
    · exact Nat.testBit_lt_two_pow (lt_of_lt_of_le (init_lt seed)
        (Nat.pow_le_pow_right (by decide) (by omega)))
  · intro h n
    have hz : ∀ n, (randAfter seed n).state = 0 := by
      intro n
      induction n with
      | zero => exact h
      | succ n ih =>
        show (step (randAfter seed n)).state = 0
        simp [step, getBit, ih]
    simp [lowSeq, hz]

/-- The low bits of a window determine all earlier ones too: the recurrence runs backwards. -/
theorem lowSeq_back (u v : Nat → Bool) (hu : Rec u) (hv : Rec v) (a : Nat)
    (h : ∀ i, i < 64 → u (a + i) = v (a + i)) (n : Nat) : u n = v n := by
  have fwd : ∀ m, ∀ i, i < 64 → u (a + m + i) = v (a + m + i) := by
    intro m
    induction m with
    | zero => simpa using h
    | succ m ih =>
      intro i hi
      by_cases h63 : i = 63
      · subst h63
        rw [show a + (m + 1) + 63 = a + m + 64 by omega, hu, hv]
        have i0 := ih 0 (by decide); have i1 := ih 1 (by decide)
        have i3 := ih 3 (by decide); have i4 := ih 4 (by decide)
        simp only [Nat.add_zero] at i0
        rw [i0, i1, i3, i4]
      · rw [show a + (m + 1) + i = a + m + (i + 1) by omega]
        exact ih (i + 1) (by omega)
  have bwd : ∀ m, m ≤ a → ∀ i, i < 64 → u (a - m + i) = v (a - m + i) := by
    intro m
    induction m with
    | zero => intro _; simpa using h
    | succ m ih =>
      intro hm i hi
      have ih' := ih (by omega)
      by_cases h0 : i = 0
      · subst h0
        have eu := hu (a - (m + 1)); have ev := hv (a - (m + 1))
        have e64 := ih' 63 (by decide)
        have e1 := ih' 0 (by decide); have e3 := ih' 2 (by decide); have e4 := ih' 3 (by decide)
        rw [show a - m + 63 = a - (m + 1) + 64 by omega] at e64
        rw [show a - m + 0 = a - (m + 1) + 1 by omega] at e1
        rw [show a - m + 2 = a - (m + 1) + 3 by omega] at e3
        rw [show a - m + 3 = a - (m + 1) + 4 by omega] at e4
        rw [e64, e1, e3, e4] at eu
        rw [eu] at ev
        simp only [Nat.add_zero]
        revert ev
        cases u (a - (m + 1)) <;> cases v (a - (m + 1)) <;>
          cases v (a - (m + 1) + 1) <;> cases v (a - (m + 1) + 3) <;>
          cases v (a - (m + 1) + 4) <;> simp
      · rw [show a - (m + 1) + i = a - m + (i - 1) by omega]
        exact ih' (i - 1) (by omega)
  by_cases hna : n ≤ a
  · have := bwd (a - n) (by omega) 0 (by decide)
    rwa [show a - (a - n) + 0 = n by omega] at this
  · have := fwd (n - a) 0 (by decide)
    rwa [show a + (n - a) + 0 = n by omega] at this

/-- Two states of a non-zero orbit coincide iff their distance is a multiple of the period. -/
theorem states_eq_iff (seed : Int) (h0 : (init seed).state ≠ 0) (m d : Nat) :
    randAfter seed (m + d) = randAfter seed m ↔ N ∣ d := by
  have hu : Rec (lowSeq seed) := lowSeq_rec seed
  constructor
  · intro h
    by_contra hd
    apply h0
    rw [← lowSeq_all_false_iff]
    apply all_zero_of_period _ hu d hd
    have hw := (state_eq_iff seed (m + d) m).1 h
    have hv : Rec (fun n => lowSeq seed (n + d)) := by
      intro n
      have := hu (n + d)
      simp only [Nat.add_right_comm _ _ d] at *
      exact this
    intro n
    exact (lowSeq_back (fun n => lowSeq seed (n + d)) (lowSeq seed) hv hu m (by
      intro i hi
      have := hw i hi
      simpa [Nat.add_right_comm] using this) n)
  · rintro ⟨k, rfl⟩
    rw [state_eq_iff]
    intro i _
    rw [show m + N * k + i = (m + i) + N * k by omega]
    exact per_mul _ _ (period_N _ hu) k _

end Toffee.LFSR
