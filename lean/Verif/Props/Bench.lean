import Verif.Lemmas.Bench
import Verif.Lemmas.LoopStutter

/-! C118: the verdict of a whole test run. -/

namespace Toffee.Bench

open Toffee.Loop Toffee.LoopSym

variable {X Y D M : Type}

/-! ### Specification: no event loop, no tasks -/

/-- The DUT after a list of calls. -/
def driven (b : Bench X Y D M) (d : D) (xs : List X) : D :=
  xs.foldl (fun d x => (runMeth b.clk (b.method x) d).2.1) d

/-- The clock cycles the calls take. -/
def cyclesOf (b : Bench X Y D M) : D → List X → Nat
  | _, [] => 0
  | d, x :: xs =>
    (runMeth b.clk (b.method x) d).2.2 + cyclesOf b (runMeth b.clk (b.method x) d).2.1 xs

/-- The hooks by priority; among equals, the one attached first is first. -/
def order (b : Bench X Y D M) : List (Ref X Y M) := b.refs.mergeSort fun r r' => decide (r.prio ≤ r'.prio)

/-- The reference models after the same calls. -/
def modelled (b : Bench X Y D M) (m : M) (xs : List X) : M :=
  xs.foldl (fun m x => (consult (order b) m x).1) m

/-- On call number `i`, with the stimulus `x`, the method returns what the hooks return, as far as they
return something. -/
def AgreeAt (b : Bench X Y D M) (d : D) (m : M) (xs : List X) (i : Nat) (x : X) : Prop :=
  ∀ z, some z ∈ (consult (order b) (modelled b m (xs.take i)) x).2 →
    b.eq (runMeth b.clk (b.method x) (driven b d (xs.take i))).1 z = true

/-- `toffee.run(test)` returns. -/
def Passes (s : St (Pc Y D) (G Y D M) Unit) : Prop :=
  halted s ∧ s.aborted = false ∧ s.st 0 = .done (some ())

/-- `toffee.run(test)` raises, while the test is still waiting. -/
def Fails (s : St (Pc Y D) (G Y D M) Unit) : Prop :=
  halted s ∧ s.aborted = true ∧ ∀ r, s.st 0 ≠ .done r

/-! ### Proof -/

variable {b : Bench X Y D M} {xs : List X}

theorem plan_order : ((plan b).map fun q => q.1.2) = order b := by
  have h1 : ((plan b).map fun q => (q.1.2, q.2)) = Priority.sorted (b.refs.map fun r => (r, r.prio)) := by
    have := sorted_map (fun q : Nat × Ref X Y M => q.2) (b.refs.zipIdx.map fun q => ((q.2, q.1), q.1.prio))
    unfold plan
    rw [← this, List.map_map]
    congr 1
    have h := congrArg (List.map fun r : Ref X Y M => (r, r.prio)) (List.zipIdx_map_fst 0 b.refs)
    rw [List.map_map] at h
    exact h
  have h2 : Priority.sorted (b.refs.map fun r => (r, r.prio)) = (order b).map fun r => (r, r.prio) := by
    have hp : (order b).Perm b.refs := List.mergeSort_perm ..
    refine Priority.sorted_unique _ _ (Priority.sorted_sorted _) ?_ ?_
    · rw [List.pairwise_map]
      have := List.pairwise_mergeSort (le := fun r r' : Ref X Y M => decide (r.prio ≤ r'.prio))
        (by intro a b c; simp; omega) (by intro a b; simp; omega) b.refs
      exact this.imp fun h => by simpa using h
    · intro p
      rw [Priority.sorted_filter, List.filter_map, List.filter_map]
      congr 1
      have hs : (b.refs.filter ((fun a : Ref X Y M × Int => a.2 == p) ∘ fun r => (r, r.prio))).Sublist (order b) := by
        refine List.sublist_mergeSort (by intro a b c; simp; omega) (by intro a b; simp; omega) ?_
          List.filter_sublist
        rw [List.pairwise_filter]
        refine List.pairwise_of_forall fun a b ha hb => ?_
        simp at ha hb
        simp; omega
      have hs' := hs.filter ((fun a : Ref X Y M × Int => a.2 == p) ∘ fun r => (r, r.prio))
      rw [List.filter_filter] at hs'
      simp only [Bool.and_self] at hs'
      exact hs'.eq_of_length ((hp.filter _).length_eq.symm)
  have := congrArg (List.map Prod.fst) (h1.trans h2)
  simpa [Function.comp_def] using this

theorem stepRefs_eq (m : M) (x : X) : stepRefs b m x = (consult (order b) m x).1 := by
  unfold stepRefs; rw [plan_order]

theorem outs_eq (m : M) (x : X) : outs b m x = (consult (order b) m x).2 := by
  unfold outs; rw [plan_order]

/-- Whether all results agree with the result of the method. -/
def agree (b : Bench X Y D M) (d : D) (m : M) (x : X) : Bool :=
  (outs b m x).all (agrees b (runMeth b.clk (b.method x) d).1)

theorem agree_iff (d : D) (m : M) (x : X) : agree b d m x = true ↔
    ∀ z, some z ∈ (consult (order b) m x).2 → b.eq (runMeth b.clk (b.method x) d).1 z = true := by
  unfold agree
  rw [outs_eq, List.all_eq_true]
  constructor
  · exact fun h z hz => h _ hz
  · intro h o ho
    cases o with
    | none => rfl
    | some z => exact h z ho

/-- The number of the first call (counted from 1) on which the outputs of DUT and reference models
differ. -/
def mismatch (b : Bench X Y D M) : D → M → List X → Option Nat
  | _, _, [] => none
  | d, m, x :: xs =>
    if agree b d m x then
      (mismatch b (runMeth b.clk (b.method x) d).2.1 (stepRefs b m x) xs).map (· + 1)
    else some 1

theorem agreeAt_zero {d : D} {m : M} {x : X} {xs : List X} :
    AgreeAt b d m (x :: xs) 0 x ↔ agree b d m x = true := (agree_iff d m x).symm

theorem agreeAt_succ {d : D} {m : M} {x y : X} {xs : List X} {i : Nat} :
    AgreeAt b d m (x :: xs) (i + 1) y ↔
      AgreeAt b (runMeth b.clk (b.method x) d).2.1 (stepRefs b m x) xs i y := by
  rw [stepRefs_eq]; exact Iff.rfl

theorem mismatch_none : ∀ (xs : List X) (d : D) (m : M),
    (∀ i x, xs[i]? = some x → AgreeAt b d m xs i x) → mismatch b d m xs = none
  | [], _, _, _ => rfl
  | x :: xs, d, m, h => by
    have h0 := agreeAt_zero.1 (h 0 x rfl)
    have := mismatch_none xs (runMeth b.clk (b.method x) d).2.1 (stepRefs b m x)
      fun i y hy => agreeAt_succ.1 (h (i + 1) y hy)
    simp [mismatch, h0, this]

theorem mismatch_some : ∀ (xs : List X) (d : D) (m : M) (k : Nat) (x : X), xs[k]? = some x →
    ¬ AgreeAt b d m xs k x → (∀ i < k, ∀ y, xs[i]? = some y → AgreeAt b d m xs i y) →
    mismatch b d m xs = some (k + 1)
  | [], _, _, _, _, h, _, _ => by simp at h
  | x :: xs, d, m, 0, y, h, hn, _ => by
    cases h
    have h0 : agree b d m x = false := by
      cases h : agree b d m x with
      | false => rfl
      | true => exact absurd (agreeAt_zero.2 h) hn
    simp [mismatch, h0]
  | x :: xs, d, m, k + 1, y, h, hn, ha => by
    have h0 := agreeAt_zero.1 (ha 0 (by omega) x rfl)
    have := mismatch_some xs (runMeth b.clk (b.method x) d).2.1 (stepRefs b m x) k y h
      (fun e => hn (agreeAt_succ.2 e)) fun i hi z hz => agreeAt_succ.1 (ha (i + 1) (by omega) z hz)
    simp [mismatch, h0, this]

theorem agree_of_none : ∀ (xs : List X) (d : D) (m : M), mismatch b d m xs = none →
    ∀ i x, xs[i]? = some x → AgreeAt b d m xs i x
  | [], _, _, _, _, _, h => by simp at h
  | x :: xs, d, m, h, i, y, hy => by
    unfold mismatch at h
    split at h
    · rename_i h0
      cases i with
      | zero => cases hy; exact agreeAt_zero.2 h0
      | succ i => exact agreeAt_succ.2 (agree_of_none xs _ _ (by simpa using h) i y hy)
    · cases h

/-- What is known at the end. -/
def Good (b : Bench X Y D M) (d : D) (m : M) (c : Nat) (xs : List X) (q : BP Y D M) : Prop :=
  q.cur = none ∧ q.batch = [] ∧ q.stopping = true ∧ q.aborted = false ∧
    q.lv 0 = some (.done (some ())) ∧
    q.g.dut = b.clk (b.clk (driven b d xs)) ∧ q.g.ref = modelled b m xs ∧
    q.cycles = c + cyclesOf b d xs + 2

def Bad (b : Bench X Y D M) (d : D) (c k : Nat) (xs : List X) (q : BP Y D M) : Prop :=
  q.cur = none ∧ q.batch = [] ∧ q.stopping = true ∧ q.aborted = true ∧
    (∃ w, q.lv 0 = some (.pend w)) ∧
    q.g.dut = driven b d (xs.take k) ∧ q.cycles = c + cyclesOf b d (xs.take k)

theorem from_idle (hN : b.refs ≠ []) (rest : List X) : ∀ (i : Nat) (x : X) (g : G Y D M) (c : Nat),
    xs.drop i = x :: rest → (∀ j, i ≤ j → g.results j = []) →
    (mismatch b g.dut g.ref (x :: rest) = none →
      ∃ q, To (sys b xs) (idle b i x g c) q ∧ Good b g.dut g.ref c (x :: rest) q) ∧
    (∀ k, mismatch b g.dut g.ref (x :: rest) = some k →
      ∃ q, To (sys b xs) (idle b i x g c) q ∧ Bad b g.dut c k (x :: rest) q) := by
  induction rest with
  | nil =>
    intro i x g c hd hr
    have hx : xs[i]? = some x := by
      have := congrArg List.head? hd
      simpa using this
    have hx' : xs[i + 1]? = none := by
      have := congrArg List.length hd
      simp at this ⊢
      omega
    have h1 := ((idle_driving (b := b) hN hx (c := c) (hr i (Nat.le_refl i))).trans (driving_ret _ _ _)).trans
      (driving_last hx')
    simp only at h1
    have hres : upd g.results i (outs b g.ref x) i = outs b g.ref x := by simp [upd]
    unfold mismatch
    cases hy : agree b g.dut g.ref x
    · simp only [Bool.false_eq_true, if_false, reduceCtorEq, false_implies, true_and, Option.some.injEq, forall_eq']
      obtain ⟨q, h3, e1, e2, e3, e4, e5, e6, e7⟩ := last_bad (b := b) (xs := xs) (i := i)
        (y := (runMeth b.clk (b.method x) g.dut).1)
        (g := ⟨(runMeth b.clk (b.method x) g.dut).2.1, stepRefs b g.ref x, upd g.results i (outs b g.ref x)⟩)
        (c := c + (runMeth b.clk (b.method x) g.dut).2.2) (by dsimp only; rw [hres]; exact hy)
      exact ⟨q, h1.trans h3, e1, e2, e3, e4, ⟨_, e5⟩, by rw [e6]; rfl, by rw [e7]; simp [cyclesOf]⟩
    · simp only [if_true, mismatch, Option.map_none, forall_const, reduceCtorEq, false_implies, and_true]
      have h2 := h1.trans (last_good (by dsimp only; rw [hres]; exact hy))
      obtain ⟨q, h3, e1, e2, e3, e4, e5, e6, e7⟩ := closing_end (b := b) (xs := xs) (n := tb b i + b.refs.length + 1)
        (ev := fun e => decide (1 ≤ e ∧ e < eb b (i + 1)))
        (g := ⟨(runMeth b.clk (b.method x) g.dut).2.1, stepRefs b g.ref x, upd g.results i (outs b g.ref x)⟩)
        (c := c + (runMeth b.clk (b.method x) g.dut).2.2) (by simp)
      exact ⟨q, h2.trans h3, e1, e2, e3, e4, e5, by rw [e6]; rfl, by rw [e6, stepRefs_eq]; rfl, by rw [e7]; rfl⟩
  | cons x' rest ih =>
    intro i x g c hd hr
    have hx : xs[i]? = some x := by
      have := congrArg List.head? hd
      simpa using this
    have hd' : xs.drop (i + 1) = x' :: rest := by
      have := congrArg List.tail hd
      simpa using this
    have hx' : xs[i + 1]? = some x' := by
      have := congrArg List.head? hd'
      simpa using this
    have h1 := ((idle_driving (b := b) hN hx (c := c) (hr i (Nat.le_refl i))).trans (driving_ret _ _ _)).trans
      (driving_compare hN hx')
    simp only at h1
    have hres : upd g.results i (outs b g.ref x) i = outs b g.ref x := by simp [upd]
    have hnext : ∀ j, i + 1 ≤ j → upd g.results i (outs b g.ref x) j = [] := by
      intro j hj
      have : j ≠ i := by omega
      simp only [upd, this, if_false]
      exact hr j (by omega)
    have hmm : ∀ d m, mismatch b d m (x :: x' :: rest) =
        if agree b d m x then
          (mismatch b (runMeth b.clk (b.method x) d).2.1 (stepRefs b m x) (x' :: rest)).map (· + 1)
        else some 1 := fun _ _ => rfl
    rw [hmm]
    cases hy : agree b g.dut g.ref x
    · simp only [Bool.false_eq_true, if_false, reduceCtorEq, false_implies, true_and, Option.some.injEq, forall_eq']
      obtain ⟨q, h3, e1, e2, e3, e4, e5, e6, e7⟩ := compare_bad (b := b) (xs := xs) (i := i) (x := x')
        (y := (runMeth b.clk (b.method x) g.dut).1)
        (g := ⟨(runMeth b.clk (b.method x) g.dut).2.1, stepRefs b g.ref x, upd g.results i (outs b g.ref x)⟩)
        (c := c + (runMeth b.clk (b.method x) g.dut).2.2) hN (by dsimp only; rw [hres]; exact hy)
        (hnext _ (Nat.le_refl _))
      exact ⟨q, h1.trans h3, e1, e2, e3, e4, e5, by rw [e6]; rfl, by rw [e7]; simp [cyclesOf]⟩
    · simp only [if_true]
      have h2 := h1.trans (compare_good (by dsimp only; rw [hres]; exact hy))
      obtain ⟨ih1, ih2⟩ := ih (i + 1) x' ⟨(runMeth b.clk (b.method x) g.dut).2.1, stepRefs b g.ref x,
        upd g.results i (outs b g.ref x)⟩ (c + (runMeth b.clk (b.method x) g.dut).2.2) hd' hnext
      constructor
      · intro hm
        obtain ⟨q, h3, e1, e2, e3, e4, e5, e6, e7, e8⟩ := ih1 (by simpa using hm)
        exact ⟨q, h2.trans h3, e1, e2, e3, e4, e5, e6, by rw [e7, stepRefs_eq]; rfl,
          by rw [e8]; simp only [cyclesOf]; omega⟩
      · intro k hm
        obtain ⟨k', hk', rfl⟩ := Option.map_eq_some_iff.mp hm
        obtain ⟨q, h3, e1, e2, e3, e4, e5, e6, e7⟩ := ih2 k' hk'
        exact ⟨q, h2.trans h3, e1, e2, e3, e4, e5, by rw [e6]; rfl,
          by rw [e7]; simp only [cyclesOf, List.take_succ_cons]; omega⟩

theorem from_start (b : Bench X Y D M) (hN : b.refs ≠ []) (xs : List X) (d : D) (m : M) :
    (mismatch b d m xs = none →
      ∃ q, To (sys b xs) (begin ⟨d, m, fun _ => []⟩) q ∧ Good b d m 0 xs q) ∧
    (∀ k, mismatch b d m xs = some k →
      ∃ q, To (sys b xs) (begin ⟨d, m, fun _ => []⟩) q ∧ Bad b d 0 k xs q) := by
  cases xs with
  | nil =>
    refine ⟨fun _ => ?_, fun k h => by cases h⟩
    obtain ⟨q, h3, e1, e2, e3, e4, e5, e6, e7⟩ := closing_end (b := b) (xs := ([] : List X)) (n := 1)
      (ev := fun _ => false) (g := ⟨d, m, fun _ => []⟩) (c := 0) rfl
    exact ⟨q, (begin_closing rfl).trans h3, e1, e2, e3, e4, e5, by rw [e6]; rfl, by rw [e6]; rfl,
      by rw [e7]; rfl⟩
  | cons x xs =>
    have h0 := begin_idle (b := b) (xs := x :: xs) (x := x) (g := ⟨d, m, fun _ => []⟩) hN rfl
    obtain ⟨h1, h2⟩ := from_idle (b := b) (xs := x :: xs) hN xs 0 x ⟨d, m, fun _ => []⟩ 0 rfl (fun _ _ => rfl)
    refine ⟨fun h => ?_, fun k h => ?_⟩
    · obtain ⟨q, h3, h4⟩ := h1 h
      exact ⟨q, h0.trans h3, h4⟩
    · obtain ⟨q, h3, h4⟩ := h2 k h
      exact ⟨q, h0.trans h3, h4⟩

theorem no_sleep (b : Bench X Y D M) (xs : List X) (k : Pc Y D) (g : G Y D M) (k' : Pc Y D) :
    (sys b xs).prog k g ≠ .sleep k' := by
  cases k with
  | meth i p => cases p <;> simp [sys, prog]
  | join i ts => cases ts <;> simp [sys, prog]
  | call i | drive i | background i y | hooks i j | gather i j ts => simp only [sys, prog]; split <;> simp
  | _ => simp [sys, prog]

theorem start_nt (d : D) (m : M) : LoopStutter.NT (start (Y := Y) d m) := by
  intro t k
  show (if t = 0 then _ else _) ≠ _
  split <;> simp

/-- Whatever timers are due, the run gets where the run without due timers ends. -/
theorem reach (b : Bench X Y D M) (xs : List X) (d : D) (m : M) (due : Nat → List Nat) {q : BP Y D M}
    (h : To (sys b xs) (begin ⟨d, m, fun _ => []⟩) q) (h1 : q.cur = none) (h2 : q.batch = [])
    (h3 : q.stopping = true) :
    ∃ n, ∀ k, n ≤ k → S q (runFor (sys b xs) due (start d m) k) := by
  obtain ⟨n0, hn0⟩ := h _ (begin_start d m)
  obtain ⟨n, hn⟩ := LoopStutter.lift_halted (sys b xs) (no_sleep b xs) due (start_nt d m) n0
    ⟨by rw [hn0.stopping, h3], by rw [hn0.cur, h1], by rw [hn0.batch, h2]⟩
  refine ⟨n, fun k hk => ?_⟩
  rw [LoopStutter.stay _ _ _ n (by
    rw [hn]
    exact ⟨by rw [hn0.stopping, h3], by rw [hn0.cur, h1], by rw [hn0.batch, h2]⟩) k hk, hn]
  exact hn0

/-! ### Theorems -/

/-- **C118.** If DUT and reference models agree on every call, the run comes to its end and passes, whatever
the timers do: the DUT has got the clock cycles of the calls, and two more at the end; the reference models
have seen every call once, in order, each time in the order of the priorities. -/
theorem C118_pass (b : Bench X Y D M) (hN : b.refs ≠ []) (xs : List X) (d : D) (m : M) (due : Nat → List Nat)
    (h : ∀ i x, xs[i]? = some x → AgreeAt b d m xs i x) :
    ∃ n, ∀ k, n ≤ k →
      Passes (runFor (sys b xs) due (start d m) k) ∧
      (runFor (sys b xs) due (start d m) k).cycles = cyclesOf b d xs + 2 ∧
      (runFor (sys b xs) due (start d m) k).g.dut = b.clk (b.clk (driven b d xs)) ∧
      (runFor (sys b xs) due (start d m) k).g.ref = modelled b m xs := by
  obtain ⟨q, hq, e1, e2, e3, e4, e5, e6, e7, e8⟩ := (from_start b hN xs d m).1 (mismatch_none xs d m h)
  obtain ⟨n, hn⟩ := reach b xs d m due hq e1 e2 e3
  refine ⟨n, fun k hk => ?_⟩
  have hs := hn k hk
  refine ⟨⟨⟨by rw [hs.stopping, e3], by rw [hs.cur, e1], by rw [hs.batch, e2]⟩, by rw [hs.aborted, e4], ?_⟩,
    by rw [hs.cycles, e8]; omega, by rw [hs.g, e6], by rw [hs.g, e7]⟩
  have := hs.st 0
  rw [e5] at this
  exact this

/-- **C118.** If they first disagree on call number `i`, the run comes to its end and fails, whatever the
timers do: the DUT has got the inputs and clock cycles of the calls up to that one, and nothing after. -/
theorem C118_fail (b : Bench X Y D M) (hN : b.refs ≠ []) (xs : List X) (d : D) (m : M) (due : Nat → List Nat) (i : Nat) (x : X)
    (hx : xs[i]? = some x) (hn : ¬ AgreeAt b d m xs i x)
    (ha : ∀ j < i, ∀ y, xs[j]? = some y → AgreeAt b d m xs j y) :
    ∃ n, ∀ k, n ≤ k →
      Fails (runFor (sys b xs) due (start d m) k) ∧
      (runFor (sys b xs) due (start d m) k).cycles = cyclesOf b d (xs.take (i + 1)) ∧
      (runFor (sys b xs) due (start d m) k).g.dut = driven b d (xs.take (i + 1)) := by
  obtain ⟨q, hq, e1, e2, e3, e4, ⟨w, e5⟩, e6, e7⟩ :=
    (from_start b hN xs d m).2 _ (mismatch_some xs d m i x hx hn ha)
  obtain ⟨n, hn⟩ := reach b xs d m due hq e1 e2 e3
  refine ⟨n, fun k hk => ?_⟩
  have hs := hn k hk
  refine ⟨⟨⟨by rw [hs.stopping, e3], by rw [hs.cur, e1], by rw [hs.batch, e2]⟩, by rw [hs.aborted, e4], ?_⟩,
    by rw [hs.cycles, e7]; omega, by rw [hs.g, e6]⟩
  intro r hr
  have := hs.st 0
  rw [e5, hr] at this
  cases this

/-- **C118.** The verdict is right: the run passes if and only if DUT and reference models agree on every
call. -/
theorem C118_verdict (b : Bench X Y D M) (hN : b.refs ≠ []) (xs : List X) (d : D) (m : M) (due : Nat → List Nat) :
    (∃ n, Passes (runFor (sys b xs) due (start d m) n)) ↔
      ∀ i x, xs[i]? = some x → AgreeAt b d m xs i x := by
  constructor
  · rintro ⟨n, hn⟩
    cases hm : mismatch b d m xs with
    | none => exact agree_of_none xs d m hm
    | some k =>
      obtain ⟨q, hq, e1, e2, e3, e4, e5, e6, e7⟩ := (from_start b hN xs d m).2 _ hm
      obtain ⟨n', hn'⟩ := reach b xs d m due hq e1 e2 e3
      have h1 := hn' (max n n') (by omega)
      rw [LoopStutter.stay _ _ _ n hn.1 _ (by omega)] at h1
      have := h1.aborted
      rw [hn.2.1, e4] at this
      cases this
  · intro h
    obtain ⟨n, hn⟩ := C118_pass b hN xs d m due h
    exact ⟨n, (hn n (Nat.le_refl n)).1⟩

/-! ### Models that have nothing to do with one another -/

/-- The reference model number `j` with a state of its own. -/
def own (j : Nat) (r : Ref X Y M) : Ref X Y (Nat → M) where
  model := fun m x => (fun k => if k = j then (r.model (m j) x).1 else m k, (r.model (m j) x).2)
  prio := r.prio

/-- A bench with the reference models `rs`. -/
def bench (method : X → Meth Y D) (clk : D → D) (eq : Y → Y → Bool) (rs : List (Ref X Y M)) :
    Bench X Y D (Nat → M) where
  method := method
  clk := clk
  refs := rs.zipIdx.map fun q => own q.2 q.1
  eq := eq

theorem consult_own (rs : List (Ref X Y M)) (x : X) (l : List (Nat × Ref X Y (Nat → M))) :
    ∀ (m : Nat → M), (l.map Prod.fst).Nodup → (∀ q ∈ l, ∃ r, rs[q.1]? = some r ∧ q.2 = own q.1 r) →
    (∀ k r, rs[k]? = some r → (consult (l.map Prod.snd) m x).1 k =
      if k ∈ l.map Prod.fst then (r.model (m k) x).1 else m k) ∧
    (∀ z, some z ∈ (consult (l.map Prod.snd) m x).2 ↔
      ∃ k r, k ∈ l.map Prod.fst ∧ rs[k]? = some r ∧ (r.model (m k) x).2 = some z) := by
  induction l with
  | nil => intro m _ _; exact ⟨fun _ _ _ => rfl, fun z => by simp [consult]⟩
  | cons q l ih =>
    intro m hn hq
    obtain ⟨j, R⟩ := q
    obtain ⟨r, hr, hR⟩ := hq (j, R) (by simp)
    simp only at hr hR
    subst hR
    rw [List.map_cons, List.nodup_cons] at hn
    obtain ⟨h1, h2⟩ := ih (fun k => if k = j then (r.model (m j) x).1 else m k) hn.2
      (fun q h => hq q (by simp [h]))
    constructor
    · intro k r' hk
      simp only [List.map_cons, consult, own]
      rw [h1 k r' hk]
      by_cases e : k = j
      · subst e
        rw [hr] at hk
        cases hk
        simp [hn.1]
      · simp only [e, if_false, List.mem_cons, false_or]
    · intro z
      simp only [List.map_cons, consult, own, List.mem_cons]
      rw [h2]
      constructor
      · rintro (h | ⟨k, r', hk, hr', hz⟩)
        · exact ⟨j, r, .inl rfl, hr, h.symm⟩
        · have : k ≠ j := fun e => hn.1 (e ▸ hk)
          simp only [this, if_false] at hz
          exact ⟨k, r', .inr hk, hr', hz⟩
      · rintro ⟨k, r', rfl | hk, hr', hz⟩
        · rw [hr] at hr'
          cases hr'
          exact .inl hz.symm
        · have : k ≠ j := fun e => hn.1 (e ▸ hk)
          exact .inr ⟨k, r', hk, hr', by simpa [this] using hz⟩

theorem consult_bench (method : X → Meth Y D) (clk : D → D) (eq : Y → Y → Bool) (rs : List (Ref X Y M))
    (m : Nat → M) (x : X) :
    (∀ k r, rs[k]? = some r →
      (consult (order (bench method clk eq rs)) m x).1 k = (r.model (m k) x).1) ∧
    (∀ z, some z ∈ (consult (order (bench method clk eq rs)) m x).2 ↔
      ∃ (k : Nat) (r : Ref X Y M), rs[k]? = some r ∧ (r.model (m k) x).2 = some z) := by
  have hl : (bench method clk eq rs).refs.length = rs.length := by simp [bench]
  have hp := plan_perm (b := bench method clk eq rs)
  rw [hl] at hp
  have e1 : ((plan (bench method clk eq rs)).map fun q => q.1).map Prod.fst =
      (plan (bench method clk eq rs)).map fun q => q.1.1 := by rw [List.map_map]; rfl
  have e2 : ((plan (bench method clk eq rs)).map fun q => q.1).map Prod.snd = order (bench method clk eq rs) := by
    rw [List.map_map]; exact plan_order
  obtain ⟨h1, h2⟩ := consult_own rs x ((plan (bench method clk eq rs)).map fun q => q.1) m
    (by rw [e1]; exact hp.nodup_iff.2 List.nodup_range)
    (by
      intro q hq
      obtain ⟨a, ha, rfl⟩ := List.mem_map.1 hq
      have := mem_plan ha
      simp only [bench, List.getElem?_map, List.getElem?_zipIdx, Option.map_map, Option.map_eq_some_iff] at this
      obtain ⟨r, hr, hr'⟩ := this
      exact ⟨r, hr, by rw [← hr']; simp⟩)
  rw [e1, e2] at h1 h2
  have hm : ∀ {k : Nat} {r : Ref X Y M}, rs[k]? = some r →
      k ∈ (plan (bench method clk eq rs)).map fun q => q.1.1 := by
    intro k r hk
    rw [hp.mem_iff, List.mem_range]
    exact (List.getElem?_eq_some_iff.1 hk).1
  constructor
  · intro k r hk
    rw [h1 k r hk, if_pos (hm hk)]
  · intro z
    rw [h2]
    exact ⟨fun ⟨k, r, _, h⟩ => ⟨k, r, h⟩, fun ⟨k, r, h⟩ => ⟨k, r, hm h.1, h⟩⟩

/-- **C118.** With reference models that have nothing to do with one another, the run passes if and only if
on every call every model, fed with the calls in their order, returns nothing or what the method returns;
the priorities play no part. -/
theorem C118_models (method : X → Meth Y D) (clk : D → D) (eq : Y → Y → Bool) (rs : List (Ref X Y M))
    (hN : rs ≠ []) (xs : List X) (d : D) (m : Nat → M) (due : Nat → List Nat) :
    (∃ n, Passes (runFor (sys (bench method clk eq rs) xs) due (start d m) n)) ↔
      ∀ i x, xs[i]? = some x → ∀ (j : Nat) (r : Ref X Y M), rs[j]? = some r →
        ∀ z, (r.model ((xs.take i).foldl (fun s x => (r.model s x).1) (m j)) x).2 = some z →
          eq (runMeth clk (method x) ((xs.take i).foldl (fun d x => (runMeth clk (method x) d).2.1) d)).1 z
            = true := by
  rw [C118_verdict _ (by cases rs with
    | nil => exact absurd rfl hN
    | cons r rs => simp [bench])]
  have hm : ∀ (l : List X) (m : Nat → M) (k : Nat) (r : Ref X Y M), rs[k]? = some r →
      modelled (bench method clk eq rs) m l k = l.foldl (fun s x => (r.model s x).1) (m k) := by
    intro l
    induction l with
    | nil => intro m k r _; rfl
    | cons x l ih =>
      intro m k r hk
      show modelled _ (consult (order (bench method clk eq rs)) m x).1 l k = _
      rw [ih _ k r hk, (consult_bench method clk eq rs m x).1 k r hk]
      rfl
  constructor
  · intro h i x hx j r hr z hz
    refine h i x hx z (((consult_bench method clk eq rs _ x).2 z).2 ⟨j, r, hr, ?_⟩)
    rw [hm _ _ _ _ hr]
    exact hz
  · intro h i x hx z hz
    obtain ⟨j, r, hr, hz⟩ := ((consult_bench method clk eq rs _ x).2 z).1 hz
    rw [hm _ _ _ _ hr] at hz
    exact h i x hx j r hr z hz

/-! ### Examples: an accumulator that adds its input, two clock cycles after it was set -/

/-- The reference model. -/
def sum : Ref Nat Nat Nat := ⟨fun m x => (m + x, some (m + x)), 99⟩

/-- One that resets the sum when it is called with 0, and says nothing then; it comes first. -/
def reset : Ref Nat Nat Nat := ⟨fun m x => (if x = 0 then 0 else m, none), 1⟩

def acc : Bench Nat Nat (Nat × Nat) Nat where
  method := fun x => .write (fun d => (x, d.2)) (.step (.write (fun d => (0, d.2)) (.step (.read fun d => .ret d.2))))
  clk := fun d => (d.1, d.2 + d.1)
  refs := [sum, reset]
  eq := fun a c => a == c

/-- The same with a sum of only three bits. -/
def acc3 : Bench Nat Nat (Nat × Nat) Nat := { acc with clk := fun d => (d.1, (d.2 + d.1) % 8) }

example : acc.refs ≠ [] := by simp [acc]

theorem order_acc : order acc = [reset, sum] := by
  simp [order, acc, List.mergeSort, List.MergeSort.Internal.splitInTwo, sum, reset]

example : ∀ i x, [3, 4, 5][i]? = some x → AgreeAt acc (0, 0) 0 [3, 4, 5] i x
  | 0, _, h | 1, _, h | 2, _, h => by
    cases h
    unfold AgreeAt modelled
    rw [order_acc]
    intro z hz
    simp [consult, reset, sum] at hz
    subst hz
    rfl
  | _ + 3, _, h => by simp at h

example : cyclesOf acc (0, 0) [3, 4, 5] = 6 := by decide

example : ([3, 4, 5][2]? = some 5 ∧ ¬ AgreeAt acc3 (0, 0) 0 [3, 4, 5] 2 5) ∧
    ∀ j < 2, ∀ y, [3, 4, 5][j]? = some y → AgreeAt acc3 (0, 0) 0 [3, 4, 5] j y := by
  have ho : order acc3 = [reset, sum] := order_acc
  refine ⟨⟨rfl, ?_⟩, ?_⟩
  · unfold AgreeAt modelled
    rw [ho]
    intro h
    exact absurd (h 12 (by simp [consult, reset, sum])) (by decide)
  · intro j hj y hy
    unfold AgreeAt modelled
    rw [ho]
    intro z hz
    match j with
    | 0 => cases hy; simp [consult, reset, sum] at hz; subst hz; rfl
    | 1 => cases hy; simp [consult, reset, sum] at hz; subst hz; rfl
    | j + 2 => omega

/-- A method with a handshake: it waits as long as the DUT is busy, at most three cycles. -/
def shake : Nat → Meth Bool (Nat × Nat)
  | 0 => .read fun d => .ret (d.1 == 0)
  | n + 1 => .read fun d => if d.1 = 0 then .ret true else .step (shake n)

example : runMeth (fun d : Nat × Nat => (d.1 - 1, d.2)) (shake 3) (2, 0) = (true, (0, 0), 2) := by decide

end Toffee.Bench
