import Verif.Lemmas.BenchAllRun

/-! The run of the test bench of `Verif.Model.BenchAll`: a driver call up to its method. -/

namespace Toffee.BenchAll

open Toffee.Loop Toffee.LoopSym

variable {X Y O D M : Type} {b : Bench X Y O D M} {N B e n : Nat} {x : X} {k : Y → Tst X Y D}

local macro "norm" : tactic =>
  `(tactic| simp only [upd, if_true, List.map_cons, List.map_nil, List.cons_append, List.nil_append, List.append_nil])

/-- The requests of the hooks of a call. -/
def dreqs (e : Nat) (l : List (Ref Y M)) : List (BH X Y O D M × Int) := (callL l).map fun a => (hookOf e a, a.1.prio)

theorem dreqs_eq (e : Nat) (l : List (Ref Y M)) :
    (dreqs e l : List (BH X Y O D M × Int)) = l.zipIdx.map fun q => (dhook e q.2 q.1, q.1.prio) := by
  unfold dreqs callL
  rw [List.map_map]; rfl

/-- The hooks are requested. -/
theorem hooks_ask {t : Nat} (m : Nat) : ∀ (j : Nat) (p : BP X Y O D M), j + m = (b.refs x).length →
    To (sys b) { p with cur := some (t, .hooks e x k j) }
      { p with cur := some (t, .gather e x k 0 []), hooks := p.hooks ++ (dreqs e (b.refs x)).drop j } := by
  induction m with
  | zero =>
    intro j p hj
    have hn : (b.refs x)[j]? = none := by rw [List.getElem?_eq_none_iff]; omega
    refine To.one (fun s h => exComp (g := p.g) (k' := .gather e x k 0 []) h rfl (by simp only [sys, prog, hn])) (To.eq ?_)
    have : (dreqs e (b.refs x) : List (BH X Y O D M × Int)).drop j = [] := by
      rw [List.drop_eq_nil_iff, dreqs_eq]; simp; omega
    simp only [this, List.append_nil]
  | succ m ih =>
    intro j p hj
    have hlt : j < (b.refs x).length := by omega
    have hs : ∀ g, (sys b).prog (.hooks e x k j) g =
        .addHook (dhook e j (b.refs x)[j]) (b.refs x)[j].prio (.hooks e x k (j + 1)) := by
      intro g
      simp only [sys, prog, List.getElem?_eq_getElem hlt]
    refine To.one (fun s h => exHook (H := dhook e j (b.refs x)[j]) (pr := (b.refs x)[j].prio) (k' := .hooks e x k (j + 1)) h rfl
      (hs _)) ?_
    refine (ih (j + 1) { p with hooks := p.hooks ++ [(dhook e j (b.refs x)[j], (b.refs x)[j].prio)] } (by omega)).trans (To.eq ?_)
    have hlt' : j < (dreqs e (b.refs x) : List (BH X Y O D M × Int)).length := by rw [dreqs_eq]; simpa using hlt
    have : (dreqs e (b.refs x) : List (BH X Y O D M × Int)).drop j =
        (dhook e j (b.refs x)[j], (b.refs x)[j].prio) :: (dreqs e (b.refs x)).drop (j + 1) := by
      rw [List.drop_eq_getElem_cons hlt']
      simp [dreqs_eq]
    simp only [this, List.append_assoc, List.cons_append, List.nil_append]

/-- `gather` creates its tasks. -/
theorem gather_loop {t0 : Nat} (m : Nat) : ∀ (j : Nat) (ts : List Nat) (p : BP X Y O D M), j + m = (b.refs x).length →
    To (sys b) { p with cur := some (t0, .gather e x k j ts) }
      { p with
        cur := some (t0, .join e x k (ts ++ List.range' p.n m))
        n := p.n + m
        ready := p.ready ++ (List.range' p.n m).map .task
        lv := fun t => if p.n ≤ t ∧ t < p.n + m then some (.ready (.wait (e + j + (t - p.n)))) else p.lv t } := by
  induction m with
  | zero =>
    intro j ts p hj
    refine To.one (fun s h => exComp (g := p.g) (k' := .join e x k ts) h rfl
      (by simp only [sys, prog]; rw [if_neg (by omega)])) (To.eq ?_)
    simp only [List.range'_zero, List.append_nil, List.map_nil, Nat.add_zero]
    congr 1
    funext t
    rw [if_neg (by omega)]
  | succ m ih =>
    intro j ts p hj
    refine To.one (fun s h => exSpawn (k0 := .wait (e + j)) (k' := fun t => .gather e x k (j + 1) (ts ++ [t])) h rfl
      (by simp only [sys, prog]; rw [if_pos (by omega)])) ?_
    refine (ih (j + 1) (ts ++ [p.n])
      { p with
        lv := upd p.lv p.n (some (.ready (.wait (e + j))))
        n := p.n + 1
        ready := p.ready ++ [.task p.n] } (by omega)).trans (To.eq ?_)
    simp only [List.range'_succ, List.append_assoc, List.cons_append, List.nil_append, List.map_cons]
    congr 1
    · omega
    · funext t
      by_cases h1 : t = p.n
      · subst h1
        rw [if_neg (by omega), if_pos (by omega)]
        simp [upd]
      · by_cases h2 : p.n + 1 ≤ t ∧ t < p.n + 1 + m
        · rw [if_pos h2, if_pos (by omega)]
          congr 3
          omega
        · rw [if_neg h2, if_neg (by omega)]
          simp [upd, h1]

/-- The tasks of `gather` begin to wait. -/
theorem wait_loop (m : Nat) : ∀ (B E : Nat) (rest : List Handle) (p : BP X Y O D M), p.cur = none →
    p.batch = (List.range' B m).map .task ++ rest →
    (∀ j < m, p.lv (B + j) = some (.ready (.wait (E + j)))) → (∀ j < m, p.ev (E + j) = false) →
    To (sys b) p
      { p with
        batch := rest
        lv := fun t => if B ≤ t ∧ t < B + m then some (.pend (.ev (E + (t - B)) .wait1)) else p.lv t
        waiters := fun e => if E ≤ e ∧ e < E + m then p.waiters e ++ [B + (e - E)] else p.waiters e } := by
  induction m with
  | zero =>
    intro B E rest p hc hb _ _
    refine To.eq ?_
    obtain ⟨cur, batch, ready, n, lv, flag, hooks, clock, td, g, cyc, ev, wt, jn, stp, ab⟩ := p
    simp only at hc hb
    subst hc
    simp only [List.range'_zero, List.map_nil, List.nil_append] at hb
    subst hb
    congr 1
    · funext t; rw [if_neg (by omega)]
    · funext t; rw [if_neg (by omega)]
  | succ m ih =>
    intro B E rest p hc hb hl he
    rw [List.range'_succ, List.map_cons, List.cons_append] at hb
    refine To.one (fun s h => runReady h hc hb (hl 0 (by omega))) ?_
    refine To.one (fun s h => exWait (e := E) h rfl rfl (he 0 (by omega))) ?_
    refine (ih (B + 1) (E + 1) rest _ rfl rfl ?_ ?_).trans (To.eq ?_)
    · intro j hj
      have := hl (j + 1) (by omega)
      rw [show B + (j + 1) = B + 1 + j by omega, show E + (j + 1) = E + 1 + j by omega] at this
      simp only [upd, show ¬ (B + 1 + j = B) by omega, if_false]
      exact this
    · intro j hj
      have := he (j + 1) (by omega)
      rw [show E + (j + 1) = E + 1 + j by omega] at this
      exact this
    · obtain ⟨cur, batch, ready, n, lv, flag, hooks, clock, td, g, cyc, ev, wt, jn, stp, ab⟩ := p
      simp only at hc
      subst hc
      congr 1
      · funext t
        by_cases h1 : t = B
        · subst h1
          rw [if_neg (by omega), if_pos (by omega)]
          simp [upd]
        · by_cases h2 : B + 1 ≤ t ∧ t < B + 1 + m
          · rw [if_pos h2, if_pos (by omega)]
            congr 3
            omega
          · rw [if_neg h2, if_neg (by omega)]
            simp [upd, h1]
      · funext e
        by_cases h1 : e = E
        · subst h1
          rw [if_neg (by omega), if_pos (by omega)]
          simp [upd]
        · by_cases h2 : E + 1 ≤ e ∧ e < E + 1 + m
          · rw [if_pos h2, if_pos (by omega)]
            simp only [upd, h1, if_false]
            rw [show B + 1 + (e - (E + 1)) = B + (e - E) by omega]
          · rw [if_neg h2, if_neg (by omega)]
            simp [upd, h1]

/-- `gather` awaits tasks that have returned. -/
theorem join_loop {t0 : Nat} (ts : List Nat) : ∀ (p : BP X Y O D M), p.cur = some (t0, .join e x k ts) →
    (∀ t ∈ ts, p.lv t = some (.done (some ()))) →
    To (sys b) p { p with cur := some (t0, .meth e x k (b.method x)) } := by
  induction ts with
  | nil =>
    intro p hc _
    exact To.one (fun s h => exComp (k' := .meth e x k (b.method x)) (g := p.g) h hc rfl) To.refl
  | cons t ts ih =>
    intro p hc hl
    refine To.one (fun s h => exJoinDone (u := t) (k' := fun _ => .join e x k ts) (kx := .failed) h hc rfl
      (hl t (by simp))) ?_
    exact ih _ rfl (fun u hu => hl u (by simp [hu]))

/-- The tasks of `gather` return, in the order of `l`; the test, which waits for the first one, is woken. -/
def ending (N B R e : Nat) (x : X) (k : Y → Tst X Y D) (l : List Nat) (f : Bool) (ev : Nat → Bool) (rs : Nat → List (Option Y))
    (w : W O D M) : BP X Y O D M where
  batch := l.map .task ++ [.clock]
  ready := if B ∈ l then [] else [.task (N + 1)]
  n := B + R
  flag := f
  lv := fun t =>
    if t = N + 1 then
      some (if B ∈ l then .pend (.join B (fun _ => .join e x k (List.range' (B + 1) (R - 1))) .failed)
        else .fin (.join B (fun _ => .join e x k (List.range' (B + 1) (R - 1))) .failed))
    else if t ∈ l then some (.fin (.ev (e + (t - B)) .wait1))
    else if B ≤ t ∧ t < B + R then some (.done (some ()))
    else base (joinSt N) w.mons (some .running) t
  hooks := w.seen.map mreq
  g := ⟨w.dut, w.ref, rs⟩
  cycles := w.cycles
  ev := ev
  waiters := wt (List.range' 1 N)
  joiners := if B ∈ l then upd (jn N) B [N + 1] else jn N

variable {R : Nat} {ev : Nat → Bool} {rs : Nat → List (Option Y)} {w : W O D M}

theorem ending_one {t : Nat} {l : List Nat} {f : Bool} (hB : N + 2 ≤ B) (ht : B ≤ t ∧ t < B + R) (hn : (t :: l).Nodup) :
    To (sys b) (ending N B R e x k (t :: l) f ev rs w) (ending N B R e x k l true ev rs w) := by
  have htl : t ∉ l := (List.nodup_cons.1 hn).1
  have ht0 : t ≠ 0 := by omega
  have htN : t ≠ N + 1 := by omega
  unfold ending
  rw [List.map_cons, List.cons_append]
  refine To.one (fun s h => runEv (t := t) (e := e + (t - B)) (k := .wait1) h rfl rfl (by simp [htN])) ?_
  refine To.one (fun s h => exTaskRun h rfl rfl) ?_
  refine To.one (fun s h => exRet h rfl rfl ht0) ?_
  refine To.eq ?_
  by_cases hBt : t = B
  · subst hBt
    simp only [List.mem_cons, true_or, if_true, htl, if_false, upd, List.map_cons, List.map_nil, List.nil_append]
    congr 1
    · funext u
      by_cases h0 : u = N + 1
      · subst h0; simp [Ne.symm htN, Status.finish]
      · by_cases h1 : u = t
        · subst h1; simp [h0, htl, ht]
        · simp [h0, h1]
    · funext e
      by_cases h : e = t <;> simp [upd, h, jn, htN]
  · have hBl : (B ∈ t :: l) ↔ B ∈ l := by
      rw [List.mem_cons]
      exact ⟨fun h => h.resolve_left (fun e => hBt e.symm), .inr⟩
    have hj : (if B ∈ l then upd (jn N) B [N + 1] else jn N : Nat → List Nat) t = [] := by
      split
      · simp [upd, hBt, jn, htN]
      · simp [jn, htN]
    simp only [hBl]
    generalize (if B ∈ l then upd (jn N) B [N + 1] else jn N : Nat → List Nat) = J at hj ⊢
    have hj2 : upd J t [] = J := by
      funext e
      by_cases h : e = t
      · subst h; simp [upd, hj]
      · simp [upd, h]
    simp only [hj, hj2, List.map_nil, List.append_nil, List.not_mem_nil, if_false]
    congr 1
    funext u
    by_cases h0 : u = N + 1
    · subst h0; simp [upd, Ne.symm htN]
    · by_cases h1 : u = t
      · subst h1; simp [upd, h0, htl, ht]
      · simp [upd, h0, h1]

theorem ending_loop (hB : N + 2 ≤ B) (l : List Nat) : ∀ (t : Nat) (f : Bool), (∀ u ∈ t :: l, B ≤ u ∧ u < B + R) → (t :: l).Nodup →
    To (sys b) (ending N B R e x k (t :: l) f ev rs w) (ending N B R e x k [] true ev rs w) := by
  induction l with
  | nil => exact fun t f ht hn => ending_one hB (ht t (by simp)) hn
  | cons u l ih =>
    intro t f ht hn
    refine (ending_one hB (ht t (by simp)) hn).trans ?_
    exact ih u true (fun v hv => ht v (List.mem_cons_of_mem _ hv)) (List.nodup_cons.1 hn).2

/-- All tasks of `gather` have returned: the method begins. -/
theorem ending_run (hB : N + 2 ≤ B) (hR : R ≠ 0) (hN : w.mons.length = N) :
    To (sys b) (ending N B R e x k [] true ev rs w) (run N (B + R) false ev rs [] (.meth e x k (b.method x)) w) := by
  simp only [ending, List.not_mem_nil, if_false, List.map_nil, List.nil_append]
  refine To.one (fun s h => clockBusy h rfl rfl rfl (N + 1) (by simp; omega) (by simp [busy])) ?_
  refine To.one (fun s h => newBatch h rfl rfl rfl) ?_
  norm
  refine To.one (fun s h => runJoin (v := ()) (t := N + 1) (u := B)
    (k := fun _ => .join e x k (List.range' (B + 1) (R - 1))) (kx := .failed)
    h rfl rfl (by simp) (by dsimp only; rw [if_neg (by omega), if_pos (by omega)])) ?_
  refine (join_loop _ _ rfl ?_).trans ?_
  · intro u hu
    rw [List.mem_range'_1] at hu
    simp only [upd, show u ≠ N + 1 by omega, if_false]
    rw [if_pos (by omega)]
  refine To.weaken (base (joinSt N) w.mons (some .running)) ?_ (To.eq ?_)
  · intro u
    by_cases h0 : u = N + 1
    · subst h0; exact .inl (by simp [upd, base_test hN])
    · simp only [upd, h0, if_false]
      split
      · rename_i h; exact .inr ⟨base_none hN (by omega), _, rfl⟩
      · exact .inl rfl
  · simp [run, bgL_nil]

/-- The test waits for the hooks, and so do the tasks of `gather`. -/
def asking (N B R e : Nat) (x : X) (k : Y → Tst X Y D) (rl : List (Ref Y M)) (ev : Nat → Bool) (rs : Nat → List (Option Y))
    (w : W O D M) : BP X Y O D M where
  batch := [.clock]
  n := B + R
  lv := fun t => if B ≤ t ∧ t < B + R then some (.pend (.ev (e + (t - B)) .wait1))
    else base (joinSt N) w.mons (some (.pend (.join B (fun _ => .join e x k (List.range' (B + 1) (R - 1))) .failed))) t
  hooks := w.seen.map mreq ++ dreqs e rl
  g := ⟨w.dut, w.ref, rs⟩
  cycles := w.cycles
  ev := ev
  waiters := fun i => if e ≤ i ∧ i < e + R then [B + (i - e)] else wt (List.range' 1 N) i
  joiners := upd (jn N) B [N + 1]

/-- The events after the call. -/
def evSet (e R : Nat) (ev : Nat → Bool) (i : Nat) : Bool := if e ≤ i ∧ i < e + R then true else ev i

theorem asking_quiet {rl : List (Ref Y M)} (t : Nat) :
    busy ((asking N B R e x k rl ev rs w : BP X Y O D M).lv t) = false := by
  simp only [asking]
  split
  · rfl
  · exact base_quiet rfl rfl t

theorem asking_hooks {rl : List (Ref Y M)} :
    (asking N B R e x k rl ev rs w : BP X Y O D M).hooks = (sawL w.seen ++ callL rl).map fun a => (hookOf e a, a.1.prio) := by
  simp only [asking, mreq_sawL e, dreqs, List.map_append]

theorem asking_try {rl : List (Ref Y M)} (ok : Ok b N e ev rs w) :
    tryAll ((Priority.sorted (asking N B R e x k rl ev rs w : BP X Y O D M).hooks).map Prod.fst) ⟨w.dut, w.ref, rs⟩ =
      (serveAll w.ref (saws w.seen ++ rl.map Req.called)).map fun s => ⟨w.dut, s.1, upd rs e s.2⟩ := by
  rw [asking_hooks, sorted_order, try_order e _ _ (ok.res e (Nat.le_refl e)), List.map_append, sawL_fst, callL_fst]

theorem asking_fails {rl : List (Ref Y M)} (ok : Ok b N e ev rs w) (hB : N + 2 ≤ B)
    (h : serveAll w.ref (saws w.seen ++ rl.map Req.called) = none) : ToSt (sys b) (asking N B R e x k rl ev rs w) Fails := by
  refine fail_end rfl rfl rfl asking_quiet rfl (by rw [asking_hooks]; exact hook_run e _)
    ⟨.join (N + 1) (fun _ => .finish) .failed, ?_⟩ ?_
  · simp only [asking]; rw [if_neg (by omega)]; rfl
  · have := asking_try (B := B) (R := R) (x := x) (k := k) (rl := rl) ok
    rw [h] at this
    exact this

theorem asking_ending {rl : List (Ref Y M)} (ok : Ok b N e ev rs w) (hB : N + 2 ≤ B) (hR : R = rl.length) (hne : rl ≠ [])
    {s : M × List (Option Y)} (h : serveAll w.ref (saws w.seen ++ rl.map Req.called) = some s) :
    To (sys b) (asking N B R e x k rl ev rs w)
      (ending N B R e x k [] true (evSet e R ev) (upd rs e s.2) { w with ref := s.1, seen := [] }) := by
  have hpos : 0 < R := by rw [hR]; exact List.length_pos_iff.2 hne
  obtain ⟨l, hl, hp⟩ := dones_order (X := X) (D := D) e w.seen rl
  rw [← hR] at hp
  have memE : ∀ i, i ∈ l.map (e + ·) ↔ e ≤ i ∧ i < e + R := by
    intro i
    rw [List.mem_map]
    constructor
    · rintro ⟨j, hj, rfl⟩
      have := List.mem_range.1 (hp.mem_iff.1 hj)
      omega
    · intro h
      exact ⟨i - e, hp.mem_iff.2 (List.mem_range.2 (by omega)), by omega⟩
  have memB : ∀ i, i ∈ l.map (B + ·) ↔ B ≤ i ∧ i < B + R := by
    intro i
    rw [List.mem_map]
    constructor
    · rintro ⟨j, hj, rfl⟩
      have := List.mem_range.1 (hp.mem_iff.1 hj)
      omega
    · intro h
      exact ⟨i - B, hp.mem_iff.2 (List.mem_range.2 (by omega)), by omega⟩
  have hnl : l.Nodup := hp.nodup_iff.2 List.nodup_range
  have hnd : ∀ c, (l.map (c + ·)).Nodup := fun c => by
    rw [List.nodup_iff_pairwise_ne, List.pairwise_map]
    exact (List.nodup_iff_pairwise_ne.1 hnl).imp fun h => by omega
  have hL : (Priority.sorted (asking N B R e x k rl ev rs w : BP X Y O D M).hooks).map Prod.fst =
      (order (sawL w.seen ++ callL rl)).map (hookOf e) := by rw [asking_hooks, sorted_order]
  have ht := asking_try (B := B) (R := R) (x := x) (k := k) (rl := rl) ok
  rw [hL, h, Option.map_some] at ht
  have hlne : l ≠ [] := by
    intro h0
    have := hp.length_eq
    rw [h0, List.length_range] at this
    simp at this; omega
  refine To.one (fun s' h' => clockMixed (g := ⟨w.dut, s.1, upd rs e s.2⟩) h' rfl rfl rfl asking_quiet rfl
    (by rw [asking_hooks]; exact hook_run e _) rfl hL (by exact ht) (by rw [hl]; exact hnd e)
    (fun i hi => ok.evs i (by rw [hl] at hi; exact ((memE i).1 hi).1)) (by rw [hl]; simpa using hlne)) ?_
  rw [hl]
  have hw : (l.map (e + ·)).flatMap (asking N B R e x k rl ev rs w : BP X Y O D M).waiters = l.map (B + ·) := by
    rw [List.flatMap_map]
    have : ∀ j ∈ l, (asking N B R e x k rl ev rs w : BP X Y O D M).waiters (e + j) = [B + j] := by
      intro j hj
      have := List.mem_range.1 (hp.mem_iff.1 hj)
      simp only [asking]
      rw [if_pos (by omega)]
      congr 2
      omega
    rw [List.flatMap_def, List.map_congr_left this, ← List.flatMap_def]
    exact List.map_eq_flatMap.symm
  rw [hw]
  obtain ⟨t, l', hl'⟩ : ∃ t l', l.map (B + ·) = t :: l' := by
    cases hc : l.map (B + ·) with
    | nil => simp at hc; exact absurd hc hlne
    | cons t l' => exact ⟨t, l', rfl⟩
  have hBl : B ∈ l.map (B + ·) := (memB B).2 (by omega)
  refine To.one (fun s h => newBatch h rfl rfl rfl) ?_
  refine To.trans (To.eq ?_) (ending_loop (b := b) (e := e) (x := x) (k := k) (R := R) (ev := evSet e R ev) (rs := upd rs e s.2)
    (w := { w with ref := s.1, seen := [] }) hB l' t false
    (fun u hu => (memB u).1 (by rw [hl']; exact hu)) (by rw [← hl']; exact hnd B))
  rw [← hl']
  unfold ending
  simp only [hBl, if_true, asking, List.nil_append, List.map_nil]
  show P.mk _ _ _ _ _ _ _ _ _ _ _ _ _ _ _ _ = P.mk _ _ _ _ _ _ _ _ _ _ _ _ _ _ _ _
  congr 1
  · funext u
    by_cases h0 : u = N + 1
    · subst h0
      have : N + 1 ∉ l.map (B + ·) := fun h => by have := (memB _).1 h; omega
      rw [if_neg this, if_neg (by omega), if_pos rfl, base_test ok.len]
    · rw [if_neg h0]
      by_cases h1 : u ∈ l.map (B + ·)
      · rw [if_pos h1, if_pos ((memB u).1 h1), if_pos h1]; rfl
      · have h2 : ¬ (B ≤ u ∧ u < B + R) := fun h => h1 ((memB u).2 h)
        rw [if_neg h1, if_neg h2, if_neg h1, if_neg h2]
        have h3 : ∀ a : Stat X Y O D, base (joinSt N) w.mons a u = upd (base (joinSt N) w.mons a) (N + 1) none u := by
          intro a; simp [upd, h0]
        rw [h3, base_upd ok.len, h3 (some .running), base_upd ok.len]
  · funext i
    simp only [evSet, memE]
  · funext i
    simp only [memE]
    by_cases h1 : e ≤ i ∧ i < e + R
    · rw [if_pos h1]
      have := ok.pos
      simp [wt, show i ≠ 0 by omega]
    · rw [if_neg h1, if_neg h1]

end Toffee.BenchAll
