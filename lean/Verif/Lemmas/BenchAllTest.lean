import Verif.Lemmas.BenchAllCall

/-! The run of the test bench of `Verif.Model.BenchAll`: the test, from where it is to the end of the run. -/

namespace Toffee.BenchAll

open Toffee.Loop Toffee.LoopSym

variable {X Y O D M : Type} {b : Bench X Y O D M} {N B e n : Nat} {x : X} {k : Y → Tst X Y D} {f : Bool}
  {ev : Nat → Bool} {rs : Nat → List (Option Y)} {bgs : List (Nat × Y)} {w w' : W O D M}

local macro "norm" : tactic =>
  `(tactic| simp only [upd, if_true, List.map_cons, List.map_nil, List.cons_append, List.nil_append, List.append_nil])

/-! ### A call -/

theorem run_comp {pc pc' : Pc X Y O D} (h : prog b pc ⟨w.dut, w.ref, rs⟩ = .comp ⟨w'.dut, w.ref, rs⟩ pc')
    (hw : w' = { w with dut := w'.dut }) : To (sys b) (run N B f ev rs bgs pc w) (run N B f ev rs bgs pc' w') := by
  rw [hw]
  exact To.one (fun s hs => exComp (g := ⟨w'.dut, w.ref, rs⟩) (k' := pc') hs rfl h) To.refl

/-- The call of a method without hooks. -/
theorem run_plain (hr : b.refs x = []) :
    To (sys b) (run N B f ev rs bgs (.test e (.call x k)) w) (run N B f ev rs bgs (.meth e x k (b.method x)) w) := by
  refine (run_comp (w' := w) (pc' := .hooks e x k 0) rfl rfl).trans ?_
  refine (hooks_ask (x := x) (e := e) (k := k) (t := N + 1) 0 0 (run N B f ev rs bgs (.hooks e x k 0) w) (by rw [hr]; rfl)).trans ?_
  have hd : (dreqs e (b.refs x) : List (BH X Y O D M × Int)) = [] := by rw [hr]; rfl
  rw [hd, List.drop_nil, List.append_nil]
  refine (gather_loop (x := x) (e := e) (k := k) (t0 := N + 1) 0 0 [] (run N B f ev rs bgs (.hooks e x k 0) w) (by rw [hr]; rfl)).trans ?_
  refine (join_loop [] _ (by rfl) (by simp)).trans (To.eq ?_)
  simp only [run, List.range'_zero, List.map_nil, List.append_nil, Nat.add_zero]
  congr 1
  funext t
  by_cases h : B + bgs.length ≤ t ∧ t < B + bgs.length
  · omega
  · exact if_neg h

/-- The call of a method with hooks: the hooks run. -/
theorem run_call (hr : b.refs x ≠ []) (ok : Ok b N e ev rs w) (hB : N + 2 ≤ B) (o : M × List (Option Y) → Option (W O D M))
    (h : ∀ s, serveAll w.ref (saws w.seen ++ (b.refs x).map Req.called) = some s →
      ToSt (sys b) (run N (B + bgs.length + (b.refs x).length) false (evSet e (b.refs x).length ev) (upd rs e s.2) []
        (.meth e x k (b.method x)) { w with ref := s.1, seen := [] }) (End b (o s))) :
    ToSt (sys b) (run N B f ev rs bgs (.test e (.call x k)) w)
      (End b (if good b rs bgs then (serveAll w.ref (saws w.seen ++ (b.refs x).map Req.called)).bind o else none)) := by
  have hpos : 0 < (b.refs x).length := List.length_pos_iff.2 hr
  obtain ⟨R, hR⟩ : ∃ R, R = (b.refs x).length := ⟨_, rfl⟩
  obtain ⟨Bw, hBw⟩ : ∃ Bw, Bw = B + bgs.length := ⟨_, rfl⟩
  rw [← hR, ← hBw] at h
  rw [← hR] at hpos
  refine ToSt.to (q := { asking N Bw R e x k (b.refs x) ev rs w with
      batch := if f then [] else [.clock]
      ready := (if f then [.clock] else []) ++ (List.range' B bgs.length ++ List.range' Bw R).map .task
      lv := fun t => if Bw ≤ t ∧ t < Bw + R then some (.ready (.wait (e + (t - Bw))))
        else bgL B bgs (base (joinSt N) w.mons
          (some (.pend (.join Bw (fun _ => .join e x k (List.range' (Bw + 1) (R - 1))) .failed)))) t
      waiters := wt (List.range' 1 N) }) ?_ ?_
  · refine (run_comp (w' := w) (pc' := .hooks e x k 0) rfl rfl).trans ?_
    refine (hooks_ask (x := x) (e := e) (k := k) (t := N + 1) R 0 (run N B f ev rs bgs (.hooks e x k 0) w) (by omega)).trans ?_
    rw [List.drop_zero]
    refine (gather_loop (x := x) (e := e) (k := k) (t0 := N + 1) R 0 []
      { run N B f ev rs bgs (.hooks e x k 0) w with
        hooks := (run N B f ev rs bgs (.hooks e x k 0) w).hooks ++ dreqs e (b.refs x) } (by omega)).trans ?_
    have hn : (run N B f ev rs bgs (.hooks e x k 0) w).n = Bw := hBw.symm
    dsimp only
    rw [hn]
    have hl : [] ++ List.range' Bw R = Bw :: List.range' (Bw + 1) (R - 1) := by
      rw [List.nil_append, ← List.range'_succ]; congr 1; omega
    have hprog : ∀ g, (sys b).prog (.join e x k ([] ++ List.range' Bw R)) g =
        .join Bw (fun _ => .join e x k (List.range' (Bw + 1) (R - 1))) .failed := by
      intro g; rw [hl]; rfl
    refine To.one (fun s h => exJoin (t := N + 1) (u := Bw) (k' := fun _ => .join e x k (List.range' (Bw + 1) (R - 1)))
      (kx := .failed) (k1 := .wait e) h rfl (hprog _) (by dsimp only; rw [if_pos (by omega)]; simp)) (To.eq ?_)
    simp only [run, asking, List.map_append, List.append_assoc]
    congr 1
    · funext t
      by_cases h1 : t = N + 1
      · subst h1
        rw [if_neg (by omega), bgL_lt (by omega), base_test ok.len]
        simp [upd]
      · have : ∀ z : Stat X Y O D, upd (fun t => if Bw ≤ t ∧ t < Bw + R then some (.ready (.wait (e + 0 + (t - Bw))))
            else bgL B bgs (base (joinSt N) w.mons (some .running)) t) (N + 1) z t =
            if Bw ≤ t ∧ t < Bw + R then some (.ready (.wait (e + 0 + (t - Bw))))
            else bgL B bgs (base (joinSt N) w.mons (some .running)) t := fun z => by simp [upd, h1]
        rw [this]
        by_cases h2 : Bw ≤ t ∧ t < Bw + R
        · rw [if_pos h2, if_pos h2]; rfl
        · rw [if_neg h2, if_neg h2]
          have h3 : ∀ a : Stat X Y O D, bgL B bgs (base (joinSt N) w.mons a) t = upd (bgL B bgs (base (joinSt N) w.mons a)) (N + 1) none t := by
            intro a; simp [upd, h1]
          rw [h3, bgL_upd (by omega), base_upd ok.len, h3 (some (.pend _)), bgL_upd (by omega), base_upd ok.len]
    · have : jn N Bw = [] := by unfold jn; rw [if_neg (by omega)]
      rw [this]; rfl
  · refine settle (ts := List.range' B bgs.length ++ List.range' Bw R) (q := { asking N Bw R e x k (b.refs x) ev rs w with
        lv := fun t => if Bw ≤ t ∧ t < Bw + R then some (.ready (.wait (e + (t - Bw))))
          else bgL B bgs (base (joinSt N) w.mons
            (some (.pend (.join Bw (fun _ => .join e x k (List.range' (Bw + 1) (R - 1))) .failed)))) t
        waiters := wt (List.range' 1 N) })
      (q' := { asking N Bw R e x k (b.refs x) ev rs w with stopping := !good b rs bgs, aborted := !good b rs bgs })
      rfl rfl rfl rfl ?_ rfl rfl rfl ⟨.join (N + 1) (fun _ => .finish) .failed, ?_⟩ ?_ ?_ ?_
    · intro _
      refine ⟨Bw, by simp only [asking]; omega, ?_⟩
      dsimp only
      rw [if_pos (by omega)]; rfl
    · simp only [asking]; rw [if_neg (by omega)]; rfl
    · intro bt rd
      refine (bgs_loop bgs B ((List.range' Bw R).map .task ++ bt) _ (by rfl) (by simp) (fun j q hq => ?_) (fun j hj => ?_)
        (by omega)).trans ?_
      · have := (List.getElem?_eq_some_iff.1 hq).1
        dsimp only
        rw [if_neg (by omega)]; exact bgL_at hq
      · show upd (jn N) Bw [N + 1] (B + j) = []
        simp [upd, show B + j ≠ Bw by omega, jn_bg hB]
      refine (wait_loop R Bw e bt _ (by rfl) (by rfl) (fun j hj => ?_) (fun j hj => ?_)).trans (To.eq ?_)
      · dsimp only
        rw [if_neg (by omega), if_pos (by omega)]
        congr 4
        omega
      · exact ok.evs _ (by omega)
      · simp only [asking, Bool.false_or]
        congr 1
        · funext t
          by_cases h1 : Bw ≤ t ∧ t < Bw + R
          · rw [if_pos h1, if_pos h1]
          · rw [if_neg h1, if_neg h1]
            by_cases h2 : B ≤ t ∧ t < B + bgs.length
            · rw [if_pos h2, base_none ok.len (by omega), if_neg h1]
            · rw [if_neg h2, if_neg h1]
              unfold bgL
              rw [if_neg h2]
        · funext i
          by_cases h1 : e ≤ i ∧ i < e + R
          · rw [if_pos h1, if_pos h1]
            have := ok.pos
            simp [wt, show i ≠ 0 by omega]
          · rw [if_neg h1, if_neg h1]
    · intro hg
      have hg' : good b rs bgs = true := by simpa using hg
      rw [hg', if_pos rfl]
      cases hs : serveAll w.ref (saws w.seen ++ (b.refs x).map Req.called) with
      | none => exact asking_fails ok (by omega) hs
      | some s =>
        exact ToSt.to ((asking_ending ok (by omega) hR hr hs).trans (ending_run (by omega) (by omega) ok.len)) (h s hs)
    · intro hg s hs
      have hg' : good b rs bgs = false := by simpa using hg
      rw [hg']; exact hs

/-! ### The method -/

theorem meth_run {e' : Nat} (p : Meth Y D) (o : Y × W O D M → Option (W O D M)) : ∀ {B : Nat} {f : Bool} {bgs : List (Nat × Y)} {w : W O D M},
    Ok b N e' ev rs w → N + 2 ≤ B →
    (∀ (y : Y) {B : Nat} {f : Bool} {bgs : List (Nat × Y)} {w : W O D M}, Ok b N e' ev rs w → N + 2 ≤ B →
      ToSt (sys b) (run N B f ev rs bgs (.meth e x k (.ret y)) w) (End b (if good b rs bgs then o (y, w) else none))) →
    ToSt (sys b) (run N B f ev rs bgs (.meth e x k p) w) (End b (if good b rs bgs then (drive b p w).bind o else none)) := by
  induction p with
  | ret y => intro B f bgs w ok hB H; exact H y ok hB
  | read r ih =>
    intro B f bgs w ok hB H
    exact ToSt.to (run_comp (w' := w) rfl rfl) (ih w.dut ok hB H)
  | write g p ih =>
    intro B f bgs w ok hB H
    refine ToSt.to (run_comp (w' := { w with dut := g w.dut }) rfl rfl) (ih ?_ hB H)
    exact ⟨ok.len, ok.mons, ok.pos, ok.ev0, ok.evs, ok.res⟩
  | step p ih =>
    intro B f bgs w ok hB H
    have := run_step (pc := .meth e x k (.step p)) (pc' := .meth e x k p) (fun _ => rfl) ok hB (bgs := bgs) (f := f)
      (fun w => (drive b p w).bind o) (fun w' hw => by
        have := ih (B := B + bgs.length) (f := false) (bgs := []) (tick_ok ok hw) (by omega) H
        exact this)
    simp only [drive]
    rw [Option.bind_assoc]
    exact this

/-! ### The end -/

/-- The test has returned. -/
def fini (N n : Nat) (ev : Nat → Bool) (rs : Nat → List (Option Y)) (w : W O D M) : BP X Y O D M where
  batch := [.clock]
  n := n
  lv := base (some (.pend (.final ()))) w.mons (some (.done (some ())))
  hooks := w.seen.map mreq
  testDone := true
  g := ⟨w.dut, w.ref, rs⟩
  cycles := w.cycles
  ev := ev
  waiters := wt (List.range' 1 N ++ [0])
  joiners := fun _ => []

theorem wt_filter (N : Nat) : (fun e => (wt (List.range' 1 N ++ [0]) e).filter (· == 0)) = wt [0] := by
  funext e
  by_cases h : e = 0
  · subst h
    simp only [wt, if_true, List.filter_append]
    have : (List.range' 1 N).filter (· == 0) = [] := by
      rw [List.filter_eq_nil_iff]
      intro a ha
      rw [List.mem_range'_1] at ha
      simp; omega
    rw [this]; rfl
  · simp [wt, h]

theorem fini_end (ok : Ok b N e ev rs w) : ToSt (sys b) (fini N n ev rs w) (End b (play b .ret w)) := by
  have hq : ∀ t, busy ((fini N n ev rs w : BP X Y O D M).lv t) = false := base_quiet rfl rfl
  have ht := try_saws ok
  simp only [play]
  cases hch : serveAll (Y := Y) w.ref (saws w.seen) with
  | none =>
    rw [hch] at ht
    exact fail_end rfl rfl rfl hq rfl (seen_run w) ⟨.final (), rfl⟩ ht
  | some m =>
    rw [hch, Option.map_some] at ht
    have h1 : ∃ q : BP X Y O D M, To (sys b) (fini N n ev rs w) q ∧
        q.cur = none ∧ q.batch = [] ∧ q.stopping = true ∧ q.aborted = false ∧
        q.lv 0 = some (.done (some ())) ∧ q.g = ⟨b.clk (b.clk w.dut), m.1, rs⟩ ∧ q.cycles = w.cycles + 2 := by
      refine ⟨?q, ?_, ?_⟩
      rotate_left
      · refine To.one (fun s h => clockCancelSilent (g := ⟨w.dut, m.1, rs⟩) h rfl rfl rfl hq rfl (seen_silent w) rfl rfl
          (by exact ht)) ?_
        unfold fini
        rw [wt_filter]
        refine To.one (fun s h => newBatch h rfl rfl rfl) ?_
        simp only [List.filter_nil, List.nil_append]
        refine To.one (fun s h => clockAfter h rfl rfl rfl (by exact ok.ev0)) ?_
        refine To.one (fun s h => newBatch h rfl rfl rfl) ?_
        rw [upd_wt]
        simp only [wt, if_true, List.map_cons, List.map_nil, List.cons_append, List.nil_append]
        refine To.one (fun s h => runFinal (v := ()) h rfl rfl (by simp [base_zero, Status.finish]) rfl) ?_
        norm
        refine To.one (fun s h => clockCancel h rfl rfl rfl ?_ rfl rfl rfl rfl) ?_
        · intro t
          by_cases h1 : t = 0 <;> simp [h1, busy, upd]
        refine To.one (fun s h => newBatch h rfl rfl rfl) ?_
        norm
        simp only [List.filter, List.cons_append, List.nil_append]
        refine To.one (fun s h => runStop h rfl rfl) ?_
        refine To.one (fun s h => clockAfter h rfl rfl rfl (by exact ok.ev0)) ?_
        exact To.refl
      · refine ⟨rfl, rfl, rfl, rfl, ?_, rfl, rfl⟩
        simp [wt]
    obtain ⟨q, h1, h2, h3, h4, h5, h6, h7, h8⟩ := h1
    refine ToSt.to h1 (ToSt.zero fun s hs => ?_)
    refine ⟨⟨⟨by rw [hs.stopping, h4], by rw [hs.cur, h2], by rw [hs.batch, h3]⟩, by rw [hs.aborted, h5], ?_⟩,
      by rw [hs.g, h7], by rw [hs.g, h7], by rw [hs.cycles, h8]⟩
    have := hs.st 0
    rw [h6] at this
    exact this

/-- The test returns. -/
theorem run_ret (ok : Ok b N e ev rs w) (hB : N + 2 ≤ B) :
    ToSt (sys b) (run N B f ev rs bgs (.test e .ret) w) (End b (if good b rs bgs then play b .ret w else none)) := by
  have hlv : (fun u => if u ∈ jn N (N + 1) then
      (upd (bgL B bgs (base (joinSt N) w.mons (some .running))) (N + 1) (some (.done (some ()))) u).map Status.finish
      else upd (bgL B bgs (base (joinSt N) w.mons (some .running))) (N + 1) (some (.done (some ()))) u) =
      (bgL B bgs (base (some (.fin (.join (N + 1) (fun _ => .finish) .failed))) w.mons (some (.done (some ())))) : Nat → Stat X Y O D) := by
    rw [bgL_upd (by omega), base_upd ok.len]
    funext u
    by_cases hu : u = 0
    · subst hu
      rw [bgL_lt (by omega), bgL_lt (by omega)]
      simp [jn, base_zero, joinSt, Status.finish]
    · have h0 : ∀ a : Stat X Y O D, bgL B bgs (base a w.mons (some (.done (some ())))) u =
          upd (bgL B bgs (base a w.mons (some (.done (some ()))))) 0 none u := by
        intro a; simp [upd, hu]
      rw [if_neg (by simp [jn, hu]), h0, bgL_upd (by omega), base_upd_zero, h0 (some (.fin _)), bgL_upd (by omega), base_upd_zero]
  unfold run
  refine ToSt.to (To.one (fun s h => exRet (v := ()) h rfl rfl (by omega)) To.refl) ?_
  dsimp only
  rw [hlv, upd_jn, show jn N (N + 1) = [0] by simp [jn], List.append_assoc, ← List.map_append]
  refine settle (ts := List.range' B bgs.length ++ [0])
    (q := { fini N (B + bgs.length) ev rs w with
      testDone := false
      waiters := wt (List.range' 1 N)
      lv := bgL B bgs (base (some (.fin (.join (N + 1) (fun _ => .finish) .failed))) w.mons (some (.done (some ())))) })
    (q' := { fini N (B + bgs.length) ev rs w with stopping := !good b rs bgs, aborted := !good b rs bgs })
    rfl rfl rfl rfl ?_ rfl rfl rfl ⟨_, rfl⟩ ?_ ?_ ?_
  · intro _
    refine ⟨0, by simp only [fini]; omega, ?_⟩
    dsimp only
    rw [bgL_lt (by omega)]; rfl
  · intro bt rd
    refine (bgs_loop bgs B ([.task 0] ++ bt) _ (by rfl) (by simp) (fun j q hq => bgL_at hq) (fun j _ => rfl) (by omega)).trans ?_
    have hl : (fun t => if B ≤ t ∧ t < B + bgs.length then none else
        bgL B bgs (base (some (.fin (.join (N + 1) (fun _ => .finish) .failed))) w.mons (some (.done (some ())))) t) =
        (base (some (.fin (.join (N + 1) (fun _ => .finish) .failed))) w.mons (some (.done (some ()))) : Nat → Stat X Y O D) := by
      funext t
      by_cases ht : B ≤ t ∧ t < B + bgs.length
      · rw [if_pos ht, base_none ok.len (by omega)]
      · rw [if_neg ht]
        unfold bgL
        rw [if_neg ht]
    dsimp only
    rw [hl]
    refine To.one (fun s h => runJoin (t := 0) (u := N + 1) (v := ()) (k := fun _ => .finish) (kx := .failed) h rfl rfl
      (by rfl) (by exact base_test ok.len)) ?_
    refine To.one (fun s h => exRetMain (v := ()) h rfl rfl (by simp [fini]) (by exact ok.ev0)) (To.eq ?_)
    dsimp only
    rw [base_upd_zero, base_upd_zero, upd_wt]
    rfl
  · intro hg
    have hg' : good b rs bgs = true := by simpa using hg
    rw [hg', if_pos rfl]
    exact fini_end ok
  · intro hg s hs
    have hg' : good b rs bgs = false := by simpa using hg
    rw [hg']; exact hs

/-! ### The test -/

theorem Ok.mono (ok : Ok b N e ev rs w) {e' : Nat} (h : e ≤ e') : Ok b N e' ev rs w :=
  ⟨ok.len, ok.mons, Nat.le_trans ok.pos h, ok.ev0, fun i hi => ok.evs i (Nat.le_trans h hi), fun i hi => ok.res i (Nat.le_trans h hi)⟩

/-- The method returns, and the comparison is left to another task. -/
theorem run_done {y : Y} {r : Y × W O D M → Option (W O D M)}
    (ih : ∀ {bgs : List (Nat × Y)}, ToSt (sys b) (run N B f ev rs bgs (.test (e + (b.refs x).length + 1) (k y)) w)
      (End b (if good b rs bgs then play b (k y) w else none)))
    (hr : r (y, w) = if (rs e).all (agrees b y) then play b (k y) w else none) :
    ToSt (sys b) (run N B f ev rs bgs (.meth e x k (.ret y)) w) (End b (if good b rs bgs then r (y, w) else none)) := by
  have h1 : To (sys b) (run N B f ev rs bgs (.meth e x k (.ret y)) w)
      (run N B f ev rs (bgs ++ [(e, y)]) (.test (e + (b.refs x).length + 1) (k y)) w) := by
    refine To.one (fun s h => exSpawn (k0 := .background e y) (k' := fun _ => .test (e + (b.refs x).length + 1) (k y)) h rfl rfl) (To.eq ?_)
    simp only [run, List.length_append, List.length_cons, List.length_nil]
    congr 1
    · rw [List.range'_concat]; simp
    · exact bgL_snoc B bgs _ (e, y)
  have h2 := ih (bgs := bgs ++ [(e, y)])
  refine ToSt.to h1 ?_
  have h3 : good b rs (bgs ++ [(e, y)]) = (good b rs bgs && (rs e).all (agrees b y)) := by
    simp [good, List.all_append]
  rw [h3] at h2
  rw [hr]
  cases hg : good b rs bgs
  · rw [hg] at h2; exact h2
  · rw [hg] at h2
    simp only [Bool.true_and] at h2
    exact h2

theorem agrees_eq (b : Bench X Y O D M) (y : Y) : agrees b y = fun z => z.all (b.eq y) := by
  funext z; cases z <;> rfl

theorem test_run (t : Tst X Y D) : ∀ {e B : Nat} {f : Bool} {ev : Nat → Bool} {rs : Nat → List (Option Y)} {bgs : List (Nat × Y)}
    {w : W O D M}, Ok b N e ev rs w → N + 2 ≤ B →
    ToSt (sys b) (run N B f ev rs bgs (.test e t) w) (End b (if good b rs bgs then play b t w else none)) := by
  induction t with
  | ret => intro e B f ev rs bgs w ok hB; exact run_ret ok hB
  | read r ih =>
    intro e B f ev rs bgs w ok hB
    exact ToSt.to (run_comp (w' := w) rfl rfl) (ih w.dut ok hB)
  | write g p ih =>
    intro e B f ev rs bgs w ok hB
    refine ToSt.to (run_comp (w' := { w with dut := g w.dut }) rfl rfl) (ih ?_ hB)
    exact ⟨ok.len, ok.mons, ok.pos, ok.ev0, ok.evs, ok.res⟩
  | step p ih =>
    intro e B f ev rs bgs w ok hB
    exact run_step (pc := .test e (.step p)) (pc' := .test e p) (fun _ => rfl) ok hB (bgs := bgs) (f := f)
      (fun w => play b p w) (fun w' hw => ih (bgs := []) (tick_ok ok hw) (by omega))
  | call x k ih =>
    intro e B f ev rs bgs w ok hB
    by_cases hr : b.refs x = []
    · refine ToSt.to (run_plain hr) ?_
      have := meth_run (b := b) (N := N) (e := e) (x := x) (k := k) (ev := ev) (rs := rs) (e' := e + (b.refs x).length + 1)
        (b.method x) (fun r => play b (k r.1) r.2) (B := B) (f := f) (bgs := bgs) (w := w) (ok.mono (by omega)) hB
        (fun y B f bgs w ok' hB' => by
          refine run_done (r := fun r => play b (k r.1) r.2) (ih y ok' hB') ?_
          rw [ok.res e (Nat.le_refl e)]; rfl)
      simp only [play, call, hr, if_true]
      exact this
    · have key := run_call (b := b) (N := N) (e := e) (x := x) (k := k) (B := B) (bgs := bgs) (f := f) (ev := ev) (rs := rs) (w := w)
        hr ok hB (fun s => (drive b (b.method x) { w with ref := s.1, seen := [] }).bind fun r =>
          if s.2.all (fun z => z.all (b.eq r.1)) then play b (k r.1) r.2 else none) (fun s hs => by
        have ok' : Ok b N (e + (b.refs x).length + 1) (evSet e (b.refs x).length ev) (upd rs e s.2) { w with ref := s.1, seen := [] } := by
          have hp := ok.pos
          refine ⟨ok.len, ok.mons, by omega, ?_, fun i hi => ?_, fun i hi => ?_⟩
          · simp only [evSet]
            rw [if_neg (by omega)]; exact ok.ev0
          · simp only [evSet]
            rw [if_neg (by omega)]; exact ok.evs i (by omega)
          · simp only [upd]
            rw [if_neg (by omega)]; exact ok.res i (by omega)
        refine (meth_run (b := b) (N := N) (e := e) (x := x) (k := k) (ev := evSet e (b.refs x).length ev) (rs := upd rs e s.2)
          (b.method x) (fun r => if s.2.all (fun z => z.all (b.eq r.1)) then play b (k r.1) r.2 else none)
          (B := B + bgs.length + (b.refs x).length) (f := false) (bgs := []) ok' (by omega)
          (fun y B f bgs w ok'' hB' => by
            refine run_done (r := fun r => if s.2.all (fun z => z.all (b.eq r.1)) then play b (k r.1) r.2 else none) (ih y ok'' hB') ?_
            rw [agrees_eq]
            simp only [upd, if_true])))
      simp only [play, call, hr, if_false]
      have h2 : ∀ (o : Option (Y × W O D M)) (s : M × List (Option Y)),
          ((o.bind fun r => if s.2.all (fun z => z.all (b.eq r.1)) then some r else none).bind fun r => play b (k r.1) r.2) =
          (o.bind fun r => if s.2.all (fun z => z.all (b.eq r.1)) then play b (k r.1) r.2 else none) := by
        intro o s
        cases o with
        | none => rfl
        | some r =>
          simp only [Option.bind_some]
          cases s.2.all (fun z => z.all (b.eq r.1)) <;> simp
      simp only [Option.bind_assoc] at h2 ⊢
      simp only [h2]
      exact key

end Toffee.BenchAll
