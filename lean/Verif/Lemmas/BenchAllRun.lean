import Verif.Lemmas.BenchAll

/-! The run of the test bench of `Verif.Model.BenchAll`: the tasks that compare results, and the clock. -/

namespace Toffee.BenchAll

open Toffee.Loop Toffee.LoopSym

variable {X Y O D M : Type} {b : Bench X Y O D M}

abbrev BS (X Y O D M : Type) := St (Pc X Y O D) (G Y D M) Unit

/-- `toffee.run(test, env_handle)` returns. -/
def Passes (s : BS X Y O D M) : Prop := halted s ∧ s.aborted = false ∧ s.st 0 = .done (some ())

/-- `toffee.run(test, env_handle)` raises; the test has not been answered. -/
def Fails (s : BS X Y O D M) : Prop := halted s ∧ s.aborted = true ∧ ∀ r, s.st 0 ≠ .done r

/-- How the run ends. -/
def End (b : Bench X Y O D M) : Option (W O D M) → BS X Y O D M → Prop
  | none, s => Fails s
  | some w, s => Passes s ∧ s.g.dut = b.clk (b.clk w.dut) ∧ s.g.ref = w.ref ∧ s.cycles = w.cycles + 2

theorem stops_fails {s : BS X Y O D M} (h : Idle0 s) (hs : Stops s) : Fails s :=
  ⟨⟨hs.1, h.cur, h.batch⟩, hs.2, h.main⟩

/-! ### Statuses -/

/-- The main task awaits the test. -/
def joinSt (N : Nat) : Stat X Y O D := some (.pend (.join (N + 1) (fun _ => .finish) .failed))

def jn (N t : Nat) : List Nat := if t = N + 1 then [0] else []

theorem upd_jn (N : Nat) : upd (jn N) (N + 1) [] = fun _ => [] := by
  funext t; by_cases h : t = N + 1 <;> simp [upd, jn, h]

/-- The main task, the monitors and the test. -/
def base (J : Stat X Y O D) (ms : List (Mon O D M × Meth (Option O) D)) (x : Stat X Y O D) : Nat → Stat X Y O D :=
  lvL (J :: pendL 0 ms ++ [x])

variable {J x : Stat X Y O D} {ms : List (Mon O D M × Meth (Option O) D)} {N : Nat}

theorem base_zero : base J ms x 0 = J := rfl

theorem base_test (hN : ms.length = N) : base J ms x (N + 1) = x :=
  lvL_at (J :: pendL 0 ms) [] _ (by simp [pendL_length, hN])

theorem base_upd (hN : ms.length = N) (y : Stat X Y O D) : upd (base J ms x) (N + 1) y = base J ms y :=
  lvL_upd (J :: pendL 0 ms) [] _ _ (by simp [pendL_length, hN])

theorem base_upd_zero (y : Stat X Y O D) : upd (base J ms x) 0 y = base y ms x := by
  have := lvL_upd [] (pendL 0 ms ++ [x]) J y (t := 0) rfl
  exact this

theorem base_none (hN : ms.length = N) {t : Nat} (ht : N + 2 ≤ t) : base J ms x t = none := by
  unfold base lvL
  rw [List.getElem?_eq_none (by simp [pendL_length, hN]; omega)]; rfl

theorem base_quiet (hJ : busy J = false) (hx : busy x = false) (t : Nat) : busy (base J ms x t) = false := by
  refine lvL_busy ?_ t
  intro z hz
  simp only [List.cons_append, List.mem_cons, List.mem_append, List.not_mem_nil, or_false] at hz
  rcases hz with h | h | h
  · rw [h]; exact hJ
  · exact pendL_quiet _ _ _ h
  · rw [h]; exact hx

/-- The tasks that are to compare results. -/
def bgL (B : Nat) (bgs : List (Nat × Y)) (f : Nat → Stat X Y O D) (t : Nat) : Stat X Y O D :=
  if B ≤ t ∧ t < B + bgs.length then (bgs[t - B]?).map fun q => .ready (.background q.1 q.2) else f t

theorem bgL_nil (B : Nat) (f : Nat → Stat X Y O D) : bgL B ([] : List (Nat × Y)) f = f := by
  funext t
  unfold bgL
  rw [if_neg (by simp)]

theorem bgL_at {B : Nat} {bgs : List (Nat × Y)} {f : Nat → Stat X Y O D} {j : Nat} {q : Nat × Y} (h : bgs[j]? = some q) :
    bgL B bgs f (B + j) = some (.ready (.background q.1 q.2)) := by
  have : j < bgs.length := (List.getElem?_eq_some_iff.1 h).1
  unfold bgL
  rw [if_pos (by omega), show B + j - B = j by omega, h]; rfl

theorem bgL_lt {B : Nat} {bgs : List (Nat × Y)} {f : Nat → Stat X Y O D} {t : Nat} (h : t < B) : bgL B bgs f t = f t := by
  unfold bgL
  rw [if_neg (by omega)]

theorem bgL_snoc (B : Nat) (bgs : List (Nat × Y)) (f : Nat → Stat X Y O D) (q : Nat × Y) :
    upd (bgL B bgs f) (B + bgs.length) (some (.ready (.background q.1 q.2))) = bgL B (bgs ++ [q]) f := by
  funext t
  unfold upd bgL
  rw [List.length_append, List.length_cons, List.length_nil]
  by_cases h : t = B + bgs.length
  · subst h
    rw [if_pos rfl, if_pos (by omega), show B + bgs.length - B = bgs.length by omega]
    simp
  · rw [if_neg h]
    by_cases h1 : B ≤ t ∧ t < B + bgs.length
    · rw [if_pos h1, if_pos (by omega), List.getElem?_append_left (by omega)]
    · rw [if_neg h1, if_neg (by omega)]

theorem bgL_upd {B : Nat} {bgs : List (Nat × Y)} {f : Nat → Stat X Y O D} {t : Nat} (h : t < B) (y : Stat X Y O D) :
    upd (bgL B bgs f) t y = bgL B bgs (upd f t y) := by
  funext u
  by_cases h1 : u = t
  · subst h1
    rw [bgL_lt h]
    simp [upd]
  · simp only [upd, bgL, h1, if_false]

/-! ### The comparisons -/

/-- The results are those that the models expect. -/
def good (b : Bench X Y O D M) (rs : Nat → List (Option Y)) (bgs : List (Nat × Y)) : Bool :=
  bgs.all fun q => (rs q.1).all (agrees b q.2)

theorem bg_one {t e : Nat} {y : Y} {rest : List Handle} {p : BP X Y O D M} (hc : p.cur = none) (hb : p.batch = .task t :: rest)
    (hl : p.lv t = some (.ready (.background e y))) (hj : p.joiners t = []) (ht : t ≠ 0) :
    To (sys b) p
      { p with
        batch := rest
        lv := upd p.lv t none
        stopping := p.stopping || !(p.g.results e).all (agrees b y)
        aborted := p.aborted || !(p.g.results e).all (agrees b y) } := by
  refine To.one (fun s h => runReady h hc hb hl) ?_
  by_cases h : (p.g.results e).all (agrees b y) = true
  · refine To.one (fun s hs => exRet (v := ()) hs rfl (by simp only [sys, prog]; rw [if_pos h]) ht) ?_
    refine To.forget t (some ()) (by simp [hj, upd]) (To.eq ?_)
    dsimp only
    have hj2 : upd p.joiners t [] = p.joiners := by
      funext x; unfold upd; by_cases e : x = t <;> simp [e, hj]
    rw [hj, hj2, h]
    simp only [List.map_nil, List.append_nil, Bool.not_true, Bool.or_false, hc]
    congr 1
    funext u
    by_cases hu : u = t <;> simp [upd, hu]
  · refine To.one (fun s hs => exRaise hs rfl (by simp only [sys, prog]; rw [if_neg h]) ht hj) (To.eq ?_)
    have h' : (p.g.results e).all (agrees b y) = false := by simpa using h
    dsimp only
    rw [h']
    simp only [Bool.not_false, Bool.or_true, hc]
    congr 1
    funext u
    by_cases hu : u = t <;> simp [upd, hu]

theorem bgs_loop (bgs : List (Nat × Y)) : ∀ (B : Nat) (rest : List Handle) (p : BP X Y O D M), p.cur = none →
    p.batch = (List.range' B bgs.length).map .task ++ rest →
    (∀ j q, bgs[j]? = some q → p.lv (B + j) = some (.ready (.background q.1 q.2))) →
    (∀ j, j < bgs.length → p.joiners (B + j) = []) → B ≠ 0 →
    To (sys b) p
      { p with
        batch := rest
        lv := fun t => if B ≤ t ∧ t < B + bgs.length then none else p.lv t
        stopping := p.stopping || !good b p.g.results bgs
        aborted := p.aborted || !good b p.g.results bgs } := by
  induction bgs with
  | nil =>
    intro B rest p hc hb _ _ _
    refine To.eq ?_
    obtain ⟨⟩ := p
    simp only at hc hb
    subst hc hb
    simp only [good, List.all_nil, Bool.not_true, Bool.or_false, List.length_nil]
    congr 1
    funext t
    rw [if_neg (by omega)]
  | cons q bgs ih =>
    intro B rest p hc hb hl hj hB
    rw [List.length_cons, List.range'_succ, List.map_cons, List.cons_append] at hb
    refine (bg_one hc hb (hl 0 q rfl) (hj 0 (by simp)) hB).trans ?_
    refine (ih (B + 1) rest _ (by exact hc) (by rfl) ?_ ?_ (by omega)).trans (To.eq ?_)
    · intro j q' hq
      have := hl (j + 1) q' (by simpa using hq)
      rw [show B + (j + 1) = B + 1 + j by omega] at this
      simp only [upd, show ¬ (B + 1 + j = B) by omega, if_false]
      exact this
    · intro j hlt
      have := hj (j + 1) (by simp; omega)
      rw [show B + (j + 1) = B + 1 + j by omega] at this
      exact this
    · dsimp only
      simp only [good, List.all_cons, Bool.not_and, Bool.or_assoc, List.length_cons]
      congr 1
      funext t
      by_cases h1 : t = B
      · subst h1
        rw [if_neg (by omega), if_pos (by omega)]
        simp [upd]
      · by_cases h2 : B + 1 ≤ t ∧ t < B + 1 + bgs.length
        · rw [if_pos h2, if_pos (by omega)]
        · rw [if_neg h2, if_neg (by omega)]
          simp [upd, h1]

/-- The tasks that can run do so; then it is the turn of the clock. -/
theorem settle {Q : BS X Y O D M → Prop} {q q' : BP X Y O D M} {f bad : Bool} {ts : List Nat} (hc : q.cur = none)
    (hk : q.clock = .check) (hf : q.flag = false) (hst : q.stopping = false)
    (hbusy : ts ≠ [] → ∃ t, t < q.n ∧ busy (q.lv t) = true) (hc' : q'.cur = none) (hst' : q'.stopping = bad) (hab' : q'.aborted = bad)
    (hmain : ∃ z, q'.lv 0 = some (.pend z))
    (body : ∀ bt rd, To (sys b) { q with batch := ts.map .task ++ bt, ready := rd } { q' with batch := bt, ready := rd })
    (hgood : bad = false → ToSt (sys b) { q' with batch := [.clock], ready := [] } Q)
    (hbad : bad = true → ∀ s, Fails s → Q s) :
    ToSt (sys b) { q with batch := if f then [] else [.clock], ready := (if f then [.clock] else []) ++ ts.map .task } Q := by
  have last : ToSt (sys b) { q' with batch := [.clock], ready := [] } Q := by
    cases hb : bad with
    | false => exact hgood hb
    | true =>
      refine ToSt.one fun s h => ?_
      rw [stepClock h hc' rfl]
      have hi : Idle0 ({ s with batch := [] } : BS X Y O D M) := by
        refine ⟨by show s.cur = none; rw [h.cur, ← hc'], rfl, fun r => ?_⟩
        obtain ⟨z, hz⟩ := hmain
        have := h.st 0
        dsimp only at this
        rw [hz] at this
        show s.st 0 ≠ _
        rw [show s.st 0 = .pend z from this]; simp
      have hs : Stops ({ s with batch := [] } : BS X Y O D M) :=
        ⟨by show s.stopping = true; rw [h.stopping, ← hb, ← hst'], by show s.aborted = true; rw [h.aborted, ← hb, ← hab']⟩
      have := runClock_stops (sys := sys b) hi hs
      exact hbad hb _ (stops_fails this.1 this.2)
  cases ts with
  | nil =>
    have h0 := body [.clock] []
    cases f with
    | false => exact ToSt.to h0 last
    | true =>
      refine ToSt.to (To.one (fun s h => newBatch h hc rfl hst) ?_) last
      exact h0
  | cons t ts =>
    obtain ⟨u, hu, hub⟩ := hbusy (by simp)
    cases f with
    | false =>
      have h0 := body [.clock] []
      refine ToSt.to (To.one (fun s h => clockBusy h hc rfl hk u hu hub) (To.one (fun s h => newBatch h hc rfl hst) ?_)) last
      refine To.trans (To.eq ?_) h0
      obtain ⟨⟩ := q
      simp only at hk hf
      subst hk hf
      simp
    | true =>
      have h0 := body [] [.clock]
      have h1 : To (sys b) { q with batch := if true then [] else [.clock], ready := (if true then [.clock] else []) ++ (t :: ts).map .task }
          { q' with batch := [], ready := [.clock] } := by
        refine To.one (fun s h => newBatch h hc rfl hst) ?_
        refine To.one (fun s h => clockBusy h hc rfl hk u hu hub) ?_
        refine To.trans (To.eq ?_) h0
        obtain ⟨⟩ := q
        simp only at hk hf
        subst hk hf
        simp
      cases hb : bad with
      | false => exact ToSt.to (h1.trans (To.one (fun s h => newBatch h hc' rfl (by show q'.stopping = false; rw [hst', hb])) To.refl)) last
      | true =>
        refine ToSt.to h1 (ToSt.zero fun s h => hbad hb s ?_)
        refine ⟨⟨by rw [h.stopping, ← hb, ← hst'], by rw [h.cur, ← hc'], h.batch⟩, by rw [h.aborted, ← hb, ← hab'], fun r => ?_⟩
        obtain ⟨z, hz⟩ := hmain
        have := h.st 0
        dsimp only at this
        rw [hz] at this
        rw [show s.st 0 = .pend z from this]; simp

/-! ### The test, a clock cycle -/

/-- The test runs, the tasks with the comparisons have been created; in its first slice (`f`) the clock is behind it. -/
def run (N B : Nat) (f : Bool) (ev : Nat → Bool) (rs : Nat → List (Option Y)) (bgs : List (Nat × Y)) (pc : Pc X Y O D)
    (w : W O D M) : BP X Y O D M where
  cur := some (N + 1, pc)
  batch := if f then [] else [.clock]
  ready := (if f then [.clock] else []) ++ (List.range' B bgs.length).map .task
  n := B + bgs.length
  lv := bgL B bgs (base (joinSt N) w.mons (some .running))
  hooks := w.seen.map mreq
  g := ⟨w.dut, w.ref, rs⟩
  cycles := w.cycles
  ev := ev
  waiters := wt (List.range' 1 N)
  joiners := jn N

/-- Everybody waits for the clock. -/
def idle (N n : Nat) (ev : Nat → Bool) (rs : Nat → List (Option Y)) (pc : Pc X Y O D) (w : W O D M) : BP X Y O D M where
  batch := [.clock]
  n := n
  lv := base (joinSt N) w.mons (some (.pend (.ev 0 pc)))
  hooks := w.seen.map mreq
  g := ⟨w.dut, w.ref, rs⟩
  cycles := w.cycles
  ev := ev
  waiters := wt (List.range' 1 (N + 1))
  joiners := jn N

/-- What holds between the calls; `e` is the number of the next one. -/
structure Ok (b : Bench X Y O D M) (N e : Nat) (ev : Nat → Bool) (rs : Nat → List (Option Y)) (w : W O D M) : Prop where
  len : w.mons.length = N
  mons : b.mons = w.mons.map Prod.fst
  pos : 1 ≤ e
  ev0 : ev 0 = false
  evs : ∀ i, e ≤ i → ev i = false
  res : ∀ i, e ≤ i → rs i = []

variable {B e n : Nat} {f : Bool} {ev : Nat → Bool} {rs : Nat → List (Option Y)} {bgs : List (Nat × Y)} {w w' : W O D M}

theorem jn_bg (hB : N + 2 ≤ B) (j : Nat) : jn N (B + j) = [] := by
  unfold jn; rw [if_neg (by omega)]

/-- The test waits for the clock. -/
theorem run_wait {Q : BS X Y O D M → Prop} {pc pc' : Pc X Y O D} (hp : ∀ g, prog b pc g = .waitEv 0 pc') (ok : Ok b N e ev rs w)
    (hB : N + 2 ≤ B) (hgood : good b rs bgs = true → ToSt (sys b) (idle N (B + bgs.length) ev rs pc' w) Q)
    (hbad : good b rs bgs = false → ∀ s, Fails s → Q s) : ToSt (sys b) (run N B f ev rs bgs pc w) Q := by
  unfold run
  refine ToSt.to (To.one (fun s h => exWait (e := 0) (k' := pc') h rfl (hp _) ok.ev0) To.refl) ?_
  dsimp only
  rw [bgL_upd (by omega), base_upd ok.len, upd_wt]
  have hw : wt (List.range' 1 N) 0 ++ [N + 1] = List.range' 1 (N + 1) := by
    rw [List.range'_1_concat, Nat.add_comm 1 N]; rfl
  rw [hw]
  refine settle (ts := List.range' B bgs.length)
    (q := { idle N (B + bgs.length) ev rs pc' w with lv := bgL B bgs (base (joinSt N) w.mons (some (.pend (.ev 0 pc')))) })
    (q' := { idle N (B + bgs.length) ev rs pc' w with stopping := !good b rs bgs, aborted := !good b rs bgs })
    rfl rfl rfl rfl ?_ rfl rfl rfl ⟨_, rfl⟩ ?_ ?_ ?_
  · intro hne
    cases hb : bgs with
    | nil => rw [hb] at hne; exact absurd rfl hne
    | cons q l => exact ⟨B, by simp [idle], by have := bgL_at (B := B) (bgs := q :: l) (f := base (joinSt N) w.mons (some (.pend (.ev 0 pc')))) (j := 0) (q := q) rfl; rw [Nat.add_zero] at this; dsimp only; rw [this]; rfl⟩
  · intro bt rd
    refine (bgs_loop bgs B bt _ (by rfl) (by rfl) (fun j q hq => bgL_at hq) (fun j _ => jn_bg hB j) (by omega)).trans (To.eq ?_)
    dsimp only [idle]
    simp only [Bool.false_or]
    congr 1
    funext t
    by_cases ht : B ≤ t ∧ t < B + bgs.length
    · rw [if_pos ht, base_none ok.len (by omega)]
    · rw [if_neg ht]
      unfold bgL
      rw [if_neg ht]
  · intro hg
    have hg' : good b rs bgs = true := by simpa using hg
    rw [hg']
    exact hgood hg'
  · intro hg
    exact hbad (by simpa using hg)

theorem tick_ok (ok : Ok b N e ev rs w) (h : tick b w = some w') : Ok b N e ev rs w' := by
  unfold tick at h
  rw [Option.map_eq_some_iff] at h
  obtain ⟨s, _, rfl⟩ := h
  exact ⟨by rw [cycle_length, ok.len], by rw [cycle_fst]; exact ok.mons, ok.pos, ok.ev0, ok.evs, ok.res⟩

theorem upd_nil {rs : Nat → List (Option Y)} (h : rs e = []) : upd rs e [] = rs := by
  funext i; by_cases hi : i = e <;> simp [upd, hi, h]

/-- Hooks without results. -/
theorem try_saws (ok : Ok b N e ev rs w) :
    tryAll ((Priority.sorted (w.seen.map mreq : List (BH X Y O D M × Int))).map Prod.fst) ⟨w.dut, w.ref, rs⟩ =
      (serveAll (Y := Y) w.ref (saws w.seen)).map fun s => ⟨w.dut, s.1, rs⟩ := by
  rw [mreq_sawL e, sorted_order, try_order e _ _ (ok.res e (Nat.le_refl e)), sawL_fst]
  cases h : serveAll (Y := Y) w.ref (saws w.seen) with
  | none => simp only [Option.map_none]
  | some s =>
    simp only [Option.map_some]
    have : s.2 = [] := by
      unfold serveAll at h
      have key : ∀ (l : List (Req Y O M)) (s0 s : M × List (Option Y)), (∀ q ∈ l, ∃ o c, q = .saw o c) →
          l.foldlM serve s0 = some s → s.2 = s0.2 := by
        intro l
        induction l with
        | nil => intro s0 s _ h; cases h; rfl
        | cons q l ih =>
          intro s0 s hq h
          obtain ⟨o, c, rfl⟩ := hq q (by simp)
          rw [List.foldlM_cons] at h
          simp only [serve] at h
          by_cases hf : c.fails s0.1 o = true
          · rw [if_pos hf] at h; cases h
          · rw [if_neg hf] at h
            exact ih (c.run s0.1 o, s0.2) s (fun q hq' => hq q (by simp [hq'])) h
      refine key _ _ _ ?_ h
      intro q hq
      have := (List.mergeSort_perm _ _).mem_iff.1 hq
      obtain ⟨a, _, rfl⟩ := List.mem_map.1 this
      exact ⟨_, _, rfl⟩
    rw [this, upd_nil (ok.res e (Nat.le_refl e))]

theorem idle0 {p : BP X Y O D M} {s : BS X Y O D M} (h : S p s) (hc : p.cur = none) (hm : ∃ z, p.lv 0 = some (.pend z)) :
    Idle0 ({ s with batch := [] } : BS X Y O D M) := by
  refine ⟨by show s.cur = none; rw [h.cur, hc], rfl, fun r => ?_⟩
  obtain ⟨z, hz⟩ := hm
  have := h.st 0
  rw [hz] at this
  show s.st 0 ≠ _
  rw [show s.st 0 = .pend z from this]; simp

/-- A hook raises. -/
theorem fail_end {p : BP X Y O D M} (hc : p.cur = none) (hb : p.batch = [.clock]) (hk : p.clock = .check)
    (hq : ∀ t, busy (p.lv t) = false) (hf : p.flag = false) (hh : ∀ q ∈ p.hooks, ∀ g, (q.1.run g).2 = [])
    (hm : ∃ z, p.lv 0 = some (.pend z)) (hn : tryAll ((Priority.sorted p.hooks).map Prod.fst) p.g = none) :
    ToSt (sys b) p Fails := by
  refine ToSt.one fun s h => ?_
  rw [stepClock h hc hb]
  have := runClock_raises (sys := sys b) (h.drop []) (idle0 h hc hm) hk hq hf hh hn
  exact stops_fails this.1 this.2

theorem seen_run (w : W O D M) : ∀ q ∈ (w.seen.map mreq : List (BH X Y O D M × Int)), ∀ g, (q.1.run g).2 = [] := by
  rw [mreq_sawL 0]; exact hook_run 0 _

theorem seen_silent (w : W O D M) : ∀ q ∈ (w.seen.map mreq : List (BH X Y O D M × Int)), Silent q.1 := by
  rw [mreq_sawL 0]; exact saw_silent 0 _

theorem idle_fails {pc : Pc X Y O D} (ok : Ok b N e ev rs w) (h : serveAll (Y := Y) w.ref (saws w.seen) = none) :
    ToSt (sys b) (idle N n ev rs pc w) Fails :=
  fail_end rfl rfl rfl (base_quiet rfl rfl) rfl (seen_run w) ⟨_, rfl⟩ (by
    have := try_saws ok
    rw [h] at this
    exact this)

/-- The clock steps the DUT, the monitors run, and the test goes on. -/
theorem idle_tick {pc : Pc X Y O D} (ok : Ok b N e ev rs w) (h : tick b w = some w') :
    To (sys b) (idle N n ev rs pc w) (run N n false ev rs [] pc w') := by
  unfold tick at h
  rw [Option.map_eq_some_iff] at h
  obtain ⟨s, hs, rfl⟩ := h
  have ht := try_saws ok
  rw [hs, Option.map_some] at ht
  refine To.one (fun s' h => clockStepSilent (g := ⟨w.dut, s.1, rs⟩) h rfl rfl rfl (base_quiet rfl rfl) rfl (seen_silent w)
    rfl ok.ev0 rfl (by exact ht)) ?_
  unfold idle
  dsimp only
  have hlv : (fun t => if t ∈ wt (List.range' 1 (N + 1)) 0 then
      (base (joinSt N) w.mons (some (.pend (.ev 0 pc))) t).map Status.finish
      else base (joinSt N) w.mons (some (.pend (.ev 0 pc))) t) =
      (lvL (joinSt N :: pendL (M := M) 0 [] ++ (finL 0 w.mons ++ [some (.fin (.ev 0 pc))])) : Nat → Stat X Y O D) := by
    have := lvL_wake (joinSt N) (pendL 0 w.mons ++ [some (.pend (.ev 0 pc))])
    rw [List.length_append, pendL_length, ok.len] at this
    simp only [List.map_append, pendL_fin] at this
    exact this
  rw [hlv, upd_wt]
  refine To.one (fun s h => newBatch h rfl rfl rfl) ?_
  refine (mons_loop (tail := [.task (N + 1), .clock]) (x := joinSt N) (T := [some (.fin (.ev 0 pc))]) w.mons [] _
    (by exact ok.mons) (by rfl) ?_ (by rfl) (by rfl) (by exact ok.ev0)).trans ?_
  · show [] ++ (wt (List.range' 1 (N + 1)) 0).map Handle.task ++ [Handle.clock] = _
    rw [List.range'_1_concat, Nat.add_comm 1 N]
    simp [wt, ok.len]
  have hlen : N + 1 = (joinSt N :: pendL 0 (cycle w.mons (b.clk w.dut)).2.1 : List (Stat X Y O D)).length := by
    simp [pendL_length, cycle_length, ok.len]
  refine To.one (fun s h => runEv (t := N + 1) (e := 0) (k := pc) h rfl rfl (by exact lvL_at _ _ _ hlen)) (To.eq ?_)
  unfold run
  simp only [sys, List.nil_append, List.length_nil, Nat.zero_add, ok.len, bgL_nil]
  rw [lvL_upd (joinSt N :: pendL 0 (cycle w.mons (b.clk w.dut)).2.1) [] _ _ hlen]
  rfl

/-- A clock cycle. -/
theorem run_step {pc pc' : Pc X Y O D} (hp : ∀ g, prog b pc g = .waitEv 0 pc') (ok : Ok b N e ev rs w) (hB : N + 2 ≤ B)
    (o : W O D M → Option (W O D M))
    (h : ∀ w', tick b w = some w' → ToSt (sys b) (run N (B + bgs.length) false ev rs [] pc' w') (End b (o w'))) :
    ToSt (sys b) (run N B f ev rs bgs pc w) (End b (if good b rs bgs then (tick b w).bind o else none)) := by
  refine run_wait hp ok hB (fun hg => ?_) (fun hg s hs => ?_)
  · rw [if_pos hg]
    cases ht : tick b w with
    | none =>
      refine idle_fails ok ?_
      unfold tick at ht
      simpa using ht
    | some w' => exact ToSt.to (idle_tick ok ht) (h w' ht)
  · rw [hg]; exact hs

end Toffee.BenchAll
