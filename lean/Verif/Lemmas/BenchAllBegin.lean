import Verif.Lemmas.BenchAllTest
import Verif.Lemmas.LoopStutter

/-! The run of the test bench of `Verif.Model.BenchAll`: the beginning, and the whole run. -/

namespace Toffee.BenchAll

open Toffee.Loop Toffee.LoopSym
open Toffee.Bench (runFor)

variable {X Y O D M : Type} {b : Bench X Y O D M}

def begin (g : G Y D M) : BP X Y O D M where
  ready := [.task 0]
  n := 1
  lv := lvL [some (.ready .start)]
  clock := .off
  g := g
  cycles := 0
  ev := fun _ => false
  waiters := fun _ => []
  joiners := fun _ => []

theorem begin_start (d : D) (m : M) : S (begin ⟨d, m, fun _ => []⟩) (start (X := X) (Y := Y) (O := O) d m) := by
  constructor <;> try rfl
  intro t
  cases t with
  | zero => rfl
  | succ t => exact ⟨none, rfl⟩

/-- The monitors from number `j` on have been created. -/
def rdL : Nat → List (Mon O D M) → List (Stat X Y O D)
  | _, [] => []
  | j, _ :: l => some (.ready (.step j)) :: rdL (j + 1) l

theorem rdL_length (l : List (Mon O D M)) : ∀ j, (rdL (X := X) (Y := Y) j l).length = l.length := by
  induction l with
  | nil => intro j; rfl
  | cons q l ih => intro j; simp [rdL, ih]

theorem rdL_append (l l' : List (Mon O D M)) : ∀ j, rdL (X := X) (Y := Y) j (l ++ l') = rdL j l ++ rdL (j + l.length) l' := by
  induction l with
  | nil => intro j; rfl
  | cons q l ih =>
    intro j
    simp only [List.cons_append, rdL, ih, List.length_cons]
    rw [show j + 1 + l.length = j + (l.length + 1) by omega]

/-- The main task creates the monitors. -/
theorem create_loop (todo : List (Mon O D M)) : ∀ (A : List (Mon O D M)) (p : BP X Y O D M), b.mons = A ++ todo →
    p.cur = some (0, .create A.length) → p.n = A.length + 1 → p.lv = lvL (some .running :: rdL 0 A) →
    p.ready = .clock :: (List.range' 1 A.length).map .task →
    To (sys b) p
      { p with
        cur := some (0, .create b.mons.length)
        n := b.mons.length + 1
        lv := lvL (some .running :: rdL 0 b.mons)
        ready := .clock :: (List.range' 1 b.mons.length).map .task } := by
  induction todo with
  | nil =>
    intro A p hm hc hn hl hr
    rw [List.append_nil] at hm
    refine To.eq ?_
    obtain ⟨⟩ := p
    simp only at hc hn hl hr
    subst hc hn hl hr
    rw [hm]
  | cons mo todo ih =>
    intro A p hm hc hn hl hr
    have hlt : A.length < b.mons.length := by rw [hm]; simp
    refine To.one (fun s h => exSpawn (k0 := .step A.length) (k' := fun _ => .create (A.length + 1)) h hc
      (by simp only [sys, prog]; rw [if_pos hlt])) ?_
    have hA : (A ++ [mo]).length = A.length + 1 := by simp
    refine (ih (A ++ [mo]) _ (by rw [hm]; simp) (by rw [hA]) (by rw [hA, ← hn]) ?_ ?_).trans To.refl
    · show upd p.lv p.n _ = _
      rw [hl, lvL_snoc _ _ (by rw [hn]; simp [rdL_length]), rdL_append]
      simp [rdL]
    · show p.ready ++ [.task p.n] = _
      rw [hr, hn, hA, List.range'_1_concat, Nat.add_comm 1 A.length]
      simp

/-- The monitors begin to wait. -/
theorem first_loop {x : Stat X Y O D} {T : List (Stat X Y O D)} {tail : List Handle} (todo : List (Mon O D M)) :
    ∀ (A : List (Mon O D M)) (p : BP X Y O D M), b.mons = A ++ todo → p.cur = none →
    p.batch = (List.range' (A.length + 1) todo.length).map .task ++ tail →
    p.lv = lvL (x :: pendL 0 (A.map fun mo => (mo, mo.method)) ++ (rdL A.length todo ++ T)) →
    p.waiters = wt (List.range' 1 A.length) → p.ev 0 = false →
    To (sys b) p
      { p with
        batch := tail
        lv := lvL (x :: pendL 0 (b.mons.map fun mo => (mo, mo.method)) ++ T)
        waiters := wt (List.range' 1 b.mons.length) } := by
  induction todo with
  | nil =>
    intro A p hm hc hb hl hw hev
    rw [List.append_nil] at hm
    refine To.eq ?_
    obtain ⟨⟩ := p
    simp only at hc hb hl hw
    subst hc hb hl hw
    rw [hm]
    simp [rdL]
  | cons mo todo ih =>
    intro A p hm hc hb hl hw hev
    have hj : b.mons[A.length]? = some mo := by rw [hm]; simp
    have hlen : A.length + 1 = (x :: pendL 0 (A.map fun mo => (mo, mo.method))).length := by simp [pendL_length]
    refine To.one (fun s h => runReady (t := A.length + 1) (k := .step A.length) h hc (by rw [hb]; rfl) ?_) ?_
    · rw [hl]; exact lvL_at _ _ _ hlen
    refine (step_wait hj
      { p with
        batch := (List.range' (A.length + 1 + 1) todo.length).map .task ++ tail
        lv := upd p.lv (A.length + 1) (some .running) } hev).trans ?_
    have hA : (A ++ [mo]).length = A.length + 1 := by simp
    refine (ih (A ++ [mo]) _ (by rw [hm]; simp) (by rfl) (by rw [hA]) ?_ ?_ (by exact hev)).trans (To.eq ?_)
    · show upd (upd p.lv (A.length + 1) (some .running)) (A.length + 1) _ = _
      rw [hl]
      simp only [rdL, List.cons_append, List.map_append, List.map_cons, List.map_nil, pendL_append, pendL, List.append_assoc, hA,
        List.nil_append, Nat.zero_add, List.length_map]
      have h1 := lvL_upd (x :: pendL 0 (A.map fun mo => (mo, mo.method))) (rdL (A.length + 1) todo ++ T)
        (some (.ready (.step A.length))) (some .running) hlen
      have h2 := lvL_upd (x :: pendL 0 (A.map fun mo => (mo, mo.method))) (rdL (A.length + 1) todo ++ T) (some .running)
        (some (.pend (.ev 0 (.mon A.length mo.method)))) hlen
      simp only [List.cons_append] at h1 h2
      rw [h1, h2]
    · show upd p.waiters 0 (p.waiters 0 ++ [A.length + 1]) = _
      rw [hw, upd_wt, hA, List.range'_1_concat, Nat.add_comm 1 A.length]; rfl
    · simp [hc]

theorem begin_testing (g : G Y D M) :
    To (sys b) (begin g) (run b.mons.length (b.mons.length + 2) true (fun _ => false) g.results [] (.test 1 b.test)
      ⟨b.mons.map fun mo => (mo, mo.method), g.dut, g.ref, [], 0⟩) := by
  unfold begin
  refine To.one (fun s h => newBatch h rfl rfl rfl) ?_
  refine To.one (fun s h => runReady (t := 0) (k := .start) h rfl rfl rfl) ?_
  refine To.one (fun s h => exStart (k' := .create 0) h rfl rfl rfl) ?_
  refine (create_loop b.mons [] _ (by rfl) (by rfl) (by rfl) ?_ (by rfl)).trans ?_
  · exact lvL_upd [] [] _ _ rfl
  refine To.one (fun s h => exSpawn (k0 := .test 1 b.test) (k' := fun t => .await t) h rfl
    (by simp only [sys, prog]; rw [if_neg (Nat.lt_irrefl _)])) ?_
  have h0 : b.mons.length + 1 = (some .running :: rdL 0 b.mons : List (Stat X Y O D)).length := by simp [rdL_length]
  dsimp only
  rw [lvL_snoc _ _ h0]
  refine To.one (fun s h => exJoin (u := b.mons.length + 1) (k' := fun _ => .finish) (kx := .failed) (k1 := .test 1 b.test) h rfl rfl
    (by exact lvL_at _ _ _ h0)) ?_
  dsimp only
  have h1 : upd (lvL (some .running :: rdL 0 b.mons ++ [some (.ready (.test 1 b.test))])) 0
      (some (.pend (.join (b.mons.length + 1) (fun _ => .finish) .failed))) =
      (lvL (joinSt b.mons.length :: rdL 0 b.mons ++ [some (.ready (.test 1 b.test))]) : Nat → Stat X Y O D) := by
    have := lvL_upd ([] : List (Stat X Y O D)) (rdL 0 b.mons ++ [some (Status.ready (Pc.test 1 b.test))]) (some Status.running)
      (joinSt b.mons.length) (t := 0) rfl
    exact this
  have h2 : upd (fun _ => []) (b.mons.length + 1) ([] ++ [0]) = jn b.mons.length := by
    funext t; by_cases h : t = b.mons.length + 1 <;> simp [upd, jn, h]
  rw [h1, h2]
  refine To.one (fun s h => newBatch h rfl rfl rfl) ?_
  refine To.one (fun s h => clockBegin h rfl rfl rfl) ?_
  refine (first_loop (tail := [.task (b.mons.length + 1)]) (x := joinSt b.mons.length) (T := [some (.ready (.test 1 b.test))])
    b.mons [] _ (by rfl) (by rfl) (by simp) (by simp [pendL]) ?_ (by rfl)).trans ?_
  · funext e; simp [wt]
  have h3 : b.mons.length + 1 = (joinSt b.mons.length :: pendL 0 (b.mons.map fun mo => (mo, mo.method)) : List (Stat X Y O D)).length := by
    simp [pendL_length]
  refine To.one (fun s h => runReady (t := b.mons.length + 1) (k := .test 1 b.test) h rfl rfl (by exact lvL_at _ _ _ h3)) (To.eq ?_)
  unfold run
  dsimp only
  rw [lvL_upd (joinSt b.mons.length :: pendL 0 (b.mons.map fun mo => (mo, mo.method))) [] _ _ h3, bgL_nil]
  rfl

/-- The whole run without due timers. -/
theorem begin_run (d : D) (m : M) : ToSt (sys b) (begin ⟨d, m, fun _ => []⟩) (End b (spec b d m)) := by
  refine ToSt.to (begin_testing _) ?_
  exact test_run (b := b) (N := b.mons.length) b.test (bgs := []) (f := true)
    ⟨by simp, by simp [Function.comp_def], Nat.le_refl 1, rfl, fun _ _ => rfl, fun _ _ => rfl⟩ (Nat.le_refl _)

theorem End.halted {o : Option (W O D M)} {s : BS X Y O D M} (h : End b o s) : halted s := by
  cases o with
  | none => exact h.1
  | some r => exact h.1.1

theorem no_sleep (b : Bench X Y O D M) (k : Pc X Y O D) (g : G Y D M) (k' : Pc X Y O D) : (sys b).prog k g ≠ .sleep k' := by
  cases k with
  | mon j p =>
    cases p with
    | ret o => cases o <;> simp [sys, prog]
    | _ => simp [sys, prog]
  | test e p => cases p <;> simp [sys, prog]
  | meth e x k p => cases p <;> simp [sys, prog]
  | join e x k ts => cases ts <;> simp [sys, prog]
  | create j | step j | hooks e x k j | gather e x k j ts | background e y => simp only [sys, prog]; split <;> simp
  | ask j y i =>
    simp only [sys, prog]
    split
    · split <;> simp
    · simp
  | _ => simp [sys, prog]

theorem start_nt (d : D) (m : M) : LoopStutter.NT (start (X := X) (Y := Y) (O := O) d m) := by
  intro t k
  show (if t = 0 then _ else _) ≠ _
  split <;> simp

/-- The whole run, whatever timers are due. -/
theorem whole_run (b : Bench X Y O D M) (d : D) (m : M) (due : Nat → List Nat) :
    ∃ n, ∀ k, n ≤ k → End b (spec b d m) (runFor (sys b) due (start d m) k) := by
  obtain ⟨n0, hn0⟩ := begin_run (b := b) d m _ (begin_start d m)
  obtain ⟨n, hn⟩ := LoopStutter.lift_halted (sys b) (no_sleep b) due (start_nt d m) n0 hn0.halted
  refine ⟨n, fun k hk => ?_⟩
  rw [LoopStutter.stay _ _ _ n (by rw [hn]; exact hn0.halted) k hk, hn]
  exact hn0

end Toffee.BenchAll
