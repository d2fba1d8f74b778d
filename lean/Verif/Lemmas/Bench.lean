import Verif.Model.Bench
import Verif.Lemmas.LoopHooks

/-! The run of the test bench of `Verif.Model.Bench`, piece by piece. -/

namespace Toffee.Bench

open Toffee.Loop Toffee.LoopSym

variable {X Y D M : Type}

abbrev BP (Y D M : Type) := P (Pc Y D) (G Y D M) Unit

/-! ### Specification: a method without event loop and tasks -/

/-- What a method returns, the DUT afterwards, and the number of clock cycles. -/
def runMeth (clk : D → D) : Meth Y D → D → Y × D × Nat
  | .ret y, d => (y, d, 0)
  | .read k, d => runMeth clk (k d) d
  | .write f k, d => runMeth clk k (f d)
  | .step k, d => ((runMeth clk k (clk d)).1, (runMeth clk k (clk d)).2.1, (runMeth clk k (clk d)).2.2 + 1)

/-- The models and what they return when the hooks run in the given order. -/
def consult : List (Ref X Y M) → M → X → M × List (Option Y)
  | [], m, _ => (m, [])
  | r :: rs, m, x =>
    ((consult rs (r.model m x).1 x).1, (r.model m x).2 :: (consult rs (r.model m x).1 x).2)

variable {b : Bench X Y D M} {xs : List X}

/-! ### The hooks of a call, in the order in which they are executed -/

/-- The hooks that call `i` requests. -/
def hookList (b : Bench X Y D M) (i : Nat) (x : X) : List (Hook (Pc Y D) (G Y D M) Unit × Int) :=
  b.refs.zipIdx.map fun q => (hook b i x q.2 q.1, q.1.prio)

/-- The models in the order of their priorities. -/
def plan (b : Bench X Y D M) : List ((Nat × Ref X Y M) × Int) :=
  Priority.sorted (b.refs.zipIdx.map fun q => ((q.2, q.1), q.1.prio))

theorem sorted_hookList (i : Nat) (x : X) :
    Priority.sorted (hookList b i x) = (plan b).map fun q => (hook b i x q.1.1 q.1.2, q.2) := by
  unfold plan
  rw [← sorted_map (fun q : Nat × Ref X Y M => hook b i x q.1 q.2), List.map_map]
  rfl

theorem mem_plan {q : (Nat × Ref X Y M) × Int} (h : q ∈ plan b) : b.refs[q.1.1]? = some q.1.2 := by
  have := (Priority.sorted_perm _).mem_iff.1 h
  obtain ⟨a, ha, rfl⟩ := List.mem_map.1 this
  exact List.mem_zipIdx_iff_getElem?.1 ha

theorem plan_perm : ((plan b).map fun q => q.1.1).Perm (List.range b.refs.length) := by
  refine ((Priority.sorted_perm _).map _).trans ?_
  rw [List.map_map]
  have : (b.refs.zipIdx.map ((fun q : (Nat × Ref X Y M) × Int => q.1.1) ∘ fun q => ((q.2, q.1), q.1.prio))) =
      b.refs.zipIdx.map Prod.snd := rfl
  rw [this, List.zipIdx_map_snd, List.range_eq_range']

/-- The models after a call. -/
def stepRefs (b : Bench X Y D M) (m : M) (x : X) : M := (consult ((plan b).map fun q => q.1.2) m x).1

/-- What the hooks return, in the order of their priorities. -/
def outs (b : Bench X Y D M) (m : M) (x : X) : List (Option Y) :=
  (consult ((plan b).map fun q => q.1.2) m x).2

theorem fold_hooks (i : Nat) (x : X) (l : List ((Nat × Ref X Y M) × Int)) : ∀ (g : G Y D M),
    l.foldl (fun g q => ((hook b i x q.1.1 q.1.2).run g).1) g =
      ⟨g.dut, (consult (l.map fun q => q.1.2) g.ref x).1,
        upd g.results i (g.results i ++ (consult (l.map fun q => q.1.2) g.ref x).2)⟩ := by
  induction l with
  | nil =>
    intro g
    obtain ⟨d, m, rs⟩ := g
    simp only [List.foldl_nil, List.map_nil, consult, List.append_nil]
    congr 1
    funext k
    by_cases h : k = i <;> simp [upd, h]
  | cons a l ih =>
    intro g
    rw [List.foldl_cons, ih]
    simp only [hook, List.map_cons, consult]
    congr 1
    funext k
    by_cases h : k = i <;> simp [upd, h]

theorem fold_plan (i : Nat) (x : X) (g : G Y D M) (hr : g.results i = []) :
    (plan b).foldl (fun g q => ((hook b i x q.1.1 q.1.2).run g).1) g =
      ⟨g.dut, stepRefs b g.ref x, upd g.results i (outs b g.ref x)⟩ := by
  rw [fold_hooks, hr]; rfl

/-! ### Task and event numbers -/

/-- The first task of call `i`. -/
def tb (b : Bench X Y D M) (i : Nat) : Nat := 1 + i * (b.refs.length + 1)

/-- The first event of call `i`. -/
def eb (b : Bench X Y D M) (i : Nat) : Nat := evNum b i 0

theorem tb_zero : tb b 0 = 1 := by simp [tb]

theorem eb_zero : eb b 0 = 1 := by simp [eb, evNum]

theorem tb_succ (i : Nat) : tb b (i + 1) = tb b i + b.refs.length + 1 := by
  unfold tb; rw [Nat.succ_mul]; omega

theorem eb_succ (i : Nat) : eb b (i + 1) = eb b i + b.refs.length := by
  unfold eb evNum; rw [Nat.succ_mul]; omega

theorem tb_pos (i : Nat) : 1 ≤ tb b i := by unfold tb; omega

theorem eb_pos (i : Nat) : 1 ≤ eb b i := by unfold eb evNum; omega

theorem evNum_eq (i j : Nat) : evNum b i j = eb b i + j := by unfold eb evNum; omega

/-! ### The program, command by command -/

theorem prog_drive {i : Nat} {x : X} (hx : xs[i]? = some x) (g : G Y D M) :
    (sys b xs).prog (.drive i) g = .comp g (.meth i (b.method x)) := by
  simp only [sys, prog, hx]

theorem prog_call {i : Nat} {x : X} (hx : xs[i]? = some x) (g : G Y D M) :
    (sys b xs).prog (.call i) g = .comp g (.hooks i 0) := by
  simp only [sys, prog, hx]

theorem prog_hook {i j : Nat} {x : X} {r : Ref X Y M} (hx : xs[i]? = some x) (hr : b.refs[j]? = some r)
    (g : G Y D M) : (sys b xs).prog (.hooks i j) g = .addHook (hook b i x j r) r.prio (.hooks i (j + 1)) := by
  simp only [sys, prog, hx, hr]

theorem prog_hooks {i j : Nat} (hr : b.refs[j]? = none) (g : G Y D M) :
    (sys b xs).prog (.hooks i j) g = .comp g (.gather i 0 []) := by
  simp only [sys, prog, hr]
  split
  · rename_i h; cases h
  · rfl

theorem prog_gather {i j : Nat} {ts : List Nat} (hj : j < b.refs.length) (g : G Y D M) :
    (sys b xs).prog (.gather i j ts) g =
      .spawn (.wait (evNum b i j)) (fun t => .gather i (j + 1) (ts ++ [t])) := by
  simp only [sys, prog, hj, if_true]

theorem prog_gathered {i j : Nat} {ts : List Nat} (hj : ¬ j < b.refs.length) (g : G Y D M) :
    (sys b xs).prog (.gather i j ts) g = .comp g (.join i ts) := by
  simp only [sys, prog, hj, if_false]

theorem prog_end {i : Nat} (hx : xs[i]? = none) (g : G Y D M) :
    (sys b xs).prog (.call i) g = .ret () := by
  simp only [sys, prog, hx]

theorem prog_good {i : Nat} {y : Y} {g : G Y D M} (h : (g.results i).all (agrees b y) = true) :
    (sys b xs).prog (.background i y) g = .ret () := by
  simp only [sys, prog, h, if_true]

theorem prog_bad {i : Nat} {y : Y} {g : G Y D M} (h : (g.results i).all (agrees b y) = false) :
    (sys b xs).prog (.background i y) g = .raise false := by
  simp only [sys, prog, h]
  rfl

local macro "norm" : tactic =>
  `(tactic| simp only [upd, if_true, List.map_cons, List.map_nil, List.cons_append, List.nil_append, List.append_nil])

/-! ### Loops -/

/-- The loop over the models: the hooks are requested. -/
theorem hooks_loop {i : Nat} {x : X} (hx : xs[i]? = some x) (m : Nat) : ∀ (j : Nat) (p : BP Y D M),
    j + m = b.refs.length → p.cur = some (0, .hooks i j) →
    To (sys b xs) p
      { p with cur := some (0, .gather i 0 []), hooks := p.hooks ++ (hookList b i x).drop j } := by
  induction m with
  | zero =>
    intro j p hj hc
    refine To.one (fun s h => exComp h hc (prog_hooks (by simp; omega) _)) (To.eq ?_)
    have : (hookList b i x).drop j = [] := by
      rw [List.drop_eq_nil_iff]; simp [hookList]; omega
    simp only [this, List.append_nil]
  | succ m ih =>
    intro j p hj hc
    have hlt : j < b.refs.length := by omega
    refine To.one (fun s h => exHook h hc (prog_hook hx (List.getElem?_eq_getElem hlt) _)) ?_
    refine (ih (j + 1) _ (by omega) rfl).trans (To.eq ?_)
    have hlt' : j < (hookList b i x).length := by simpa [hookList] using hlt
    have : (hookList b i x).drop j =
        (hook b i x j b.refs[j], b.refs[j].prio) :: (hookList b i x).drop (j + 1) := by
      rw [List.drop_eq_getElem_cons hlt']
      simp [hookList]
    simp only [this, List.append_assoc, List.cons_append, List.nil_append]

/-- `gather` creates its tasks. -/
theorem gather_loop {i : Nat} (m : Nat) : ∀ (j : Nat) (ts : List Nat) (p : BP Y D M),
    j + m = b.refs.length → p.cur = some (0, .gather i j ts) →
    To (sys b xs) p
      { p with
        cur := some (0, .join i (ts ++ List.range' p.n m))
        n := p.n + m
        ready := p.ready ++ (List.range' p.n m).map .task
        lv := fun t => if p.n ≤ t ∧ t < p.n + m then some (.ready (.wait (eb b i + j + (t - p.n))))
          else p.lv t } := by
  induction m with
  | zero =>
    intro j ts p hj hc
    refine To.one (fun s h => exComp h hc (prog_gathered (by omega) _)) (To.eq ?_)
    simp only [List.range'_zero, List.append_nil, List.map_nil, Nat.add_zero]
    congr 1
    funext t
    rw [if_neg (by omega)]
  | succ m ih =>
    intro j ts p hj hc
    refine To.one (fun s h => exSpawn h hc (prog_gather (by omega) _)) ?_
    refine (ih (j + 1) _ _ (by omega) rfl).trans (To.eq ?_)
    simp only [List.range'_succ, List.append_assoc, List.cons_append, List.nil_append, List.map_cons]
    congr 1
    · omega
    · funext t
      by_cases h1 : t = p.n
      · subst h1
        rw [if_neg (by omega), if_pos (by omega)]
        simp [upd, evNum_eq]
      · by_cases h2 : p.n + 1 ≤ t ∧ t < p.n + 1 + m
        · rw [if_pos h2, if_pos (by omega)]
          congr 3
          omega
        · rw [if_neg h2, if_neg (by omega)]
          simp [upd, h1]

/-- The tasks of `gather` begin to wait. -/
theorem wait_loop (m : Nat) : ∀ (B E : Nat) (rest : List Handle) (p : BP Y D M), p.cur = none →
    p.batch = (List.range' B m).map .task ++ rest →
    (∀ j < m, p.lv (B + j) = some (.ready (.wait (E + j)))) → (∀ j < m, p.ev (E + j) = false) →
    To (sys b xs) p
      { p with
        batch := rest
        lv := fun t => if B ≤ t ∧ t < B + m then some (.pend (.ev (E + (t - B)) .wait1)) else p.lv t
        waiters := fun e => if E ≤ e ∧ e < E + m then p.waiters e ++ [B + (e - E)] else p.waiters e } := by
  induction m with
  | zero =>
    intro B E rest p hc hb _ _
    refine To.eq ?_
    obtain ⟨cur, batch, ready, n, lv, flag, hooks, clock, td, g, cyc, ev, wt, jn, stp, ab⟩ := p
    simp only at hc hb
    subst hc
    simp only [List.range'_zero, List.map_nil, List.nil_append] at hb
    subst hb
    congr 1
    · funext t; rw [if_neg (by omega)]
    · funext t; rw [if_neg (by omega)]
  | succ m ih =>
    intro B E rest p hc hb hl he
    rw [List.range'_succ, List.map_cons, List.cons_append] at hb
    refine To.one (fun s h => runReady h hc hb (hl 0 (by omega))) ?_
    refine To.one (fun s h => exWait (e := E) h rfl rfl (he 0 (by omega))) ?_
    refine (ih (B + 1) (E + 1) rest _ rfl rfl ?_ ?_).trans (To.eq ?_)
    · intro j hj
      have := hl (j + 1) (by omega)
      rw [show B + (j + 1) = B + 1 + j by omega, show E + (j + 1) = E + 1 + j by omega] at this
      simp only [upd, show ¬ (B + 1 + j = B) by omega, if_false]
      exact this
    · intro j hj
      have := he (j + 1) (by omega)
      rw [show E + (j + 1) = E + 1 + j by omega] at this
      exact this
    · obtain ⟨cur, batch, ready, n, lv, flag, hooks, clock, td, g, cyc, ev, wt, jn, stp, ab⟩ := p
      simp only at hc
      subst hc
      congr 1
      · funext t
        by_cases h1 : t = B
        · subst h1
          rw [if_neg (by omega), if_pos (by omega)]
          simp [upd]
        · by_cases h2 : B + 1 ≤ t ∧ t < B + 1 + m
          · rw [if_pos h2, if_pos (by omega)]
            congr 3
            omega
          · rw [if_neg h2, if_neg (by omega)]
            simp [upd, h1]
      · funext e
        by_cases h1 : e = E
        · subst h1
          rw [if_neg (by omega), if_pos (by omega)]
          simp [upd]
        · by_cases h2 : E + 1 ≤ e ∧ e < E + 1 + m
          · rw [if_pos h2, if_pos (by omega)]
            simp only [upd, h1, if_false]
            rw [show B + 1 + (e - (E + 1)) = B + (e - E) by omega]
          · rw [if_neg h2, if_neg (by omega)]
            simp [upd, h1]

/-- The tasks of `gather` return, in the order of `l`; the task that waits for the first one is woken. -/
def ending (i B E N : Nat) (l : List Nat) (f : Bool) (ev : Nat → Bool) (g : G Y D M) (c : Nat) : BP Y D M where
  batch := l.map .task ++ [.clock]
  ready := if B ∈ l then [] else [.task 0]
  n := B + N
  flag := f
  lv := fun t =>
    if t = 0 then
      some (if B ∈ l then .pend (.join B (fun _ => .join i (List.range' (B + 1) (N - 1))) .failed)
        else .fin (.join B (fun _ => .join i (List.range' (B + 1) (N - 1))) .failed))
    else if t ∈ l then some (.fin (.ev (E + (t - B)) .wait1))
    else if B ≤ t ∧ t < B + N then some (.done (some ()))
    else none
  g := g
  cycles := c
  ev := ev
  waiters := fun _ => []
  joiners := if B ∈ l then upd (fun _ => []) B [0] else fun _ => []

theorem ending_one {i B E N : Nat} {t : Nat} {l : List Nat} {f : Bool} {ev : Nat → Bool} {g : G Y D M} {c : Nat}
    (hB : 1 ≤ B) (ht : B ≤ t ∧ t < B + N) (hl : ∀ u ∈ l, B ≤ u ∧ u < B + N) (hn : (t :: l).Nodup) :
    To (sys b xs) (ending i B E N (t :: l) f ev g c) (ending i B E N l true ev g c) := by
  have htl : t ∉ l := (List.nodup_cons.1 hn).1
  have ht0 : t ≠ 0 := by omega
  unfold ending
  rw [List.map_cons, List.cons_append]
  refine To.one (fun s h => runEv (t := t) (e := E + (t - B)) (k := .wait1) h rfl rfl (by simp [ht0])) ?_
  refine To.one (fun s h => exTaskRun h rfl rfl) ?_
  refine To.one (fun s h => exRet h rfl rfl ht0) ?_
  refine To.eq ?_
  by_cases hBt : t = B
  · subst hBt
    simp only [List.mem_cons, true_or, if_true, htl, if_false, upd, List.map_cons, List.map_nil, List.nil_append]
    congr 1
    · funext u
      by_cases h0 : u = 0
      · subst h0; simp [Ne.symm ht0, Status.finish]
      · by_cases h1 : u = t
        · subst h1; simp [h0, htl, ht]
        · simp [h0, h1]
    · funext e
      by_cases h : e = t <;> simp [upd, h]
  · have hBl : (B ∈ t :: l) ↔ B ∈ l := by
      rw [List.mem_cons]
      exact ⟨fun h => h.resolve_left (fun e => hBt e.symm), .inr⟩
    have hj : (if B ∈ l then upd (fun _ => []) B [0] else fun _ => [] : Nat → List Nat) t = [] := by
      split
      · simp [upd, hBt]
      · rfl
    simp only [hBl]
    generalize (if B ∈ l then upd (fun _ => []) B [0] else fun _ => [] : Nat → List Nat) = J at hj ⊢
    have hj2 : upd J t [] = J := by
      funext e
      by_cases h : e = t
      · subst h; simp [upd, hj]
      · simp [upd, h]
    simp only [hj, hj2, List.map_nil, List.append_nil, List.not_mem_nil, if_false]
    congr 1
    funext u
    by_cases h0 : u = 0
    · subst h0; simp [upd, Ne.symm ht0]
    · by_cases h1 : u = t
      · subst h1; simp [upd, h0, htl, ht]
      · simp [upd, h0, h1]

theorem ending_loop {i B E N : Nat} {ev : Nat → Bool} {g : G Y D M} {c : Nat} (hB : 1 ≤ B) (l : List Nat) :
    ∀ (t : Nat) (f : Bool), (∀ u ∈ t :: l, B ≤ u ∧ u < B + N) → (t :: l).Nodup →
    To (sys b xs) (ending i B E N (t :: l) f ev g c) (ending i B E N [] true ev g c) := by
  induction l with
  | nil => exact fun t f ht hn => ending_one hB (ht t (by simp)) (by simp) hn
  | cons u l ih =>
    intro t f ht hn
    refine (ending_one hB (ht t (by simp)) (fun v hv => ht v (by simp [hv])) hn).trans ?_
    exact ih u true (fun v hv => ht v (List.mem_cons_of_mem _ hv)) (List.nodup_cons.1 hn).2

/-- `gather` awaits tasks that have returned. -/
theorem join_loop {i : Nat} (ts : List Nat) : ∀ (p : BP Y D M), p.cur = some (0, .join i ts) →
    (∀ t ∈ ts, p.lv t = some (.done (some ()))) →
    To (sys b xs) p { p with cur := some (0, .drive i) } := by
  induction ts with
  | nil =>
    intro p hc _
    exact To.one (fun s h => exComp (k' := .drive i) (g := p.g) h hc rfl) To.refl
  | cons t ts ih =>
    intro p hc hl
    refine To.one (fun s h => exJoinDone (u := t) (k' := fun _ => .join i ts) (kx := .failed) h hc rfl
      (hl t (by simp))) ?_
    exact ih _ rfl (fun u hu => hl u (by simp [hu]))

/-! ### The states the run goes through -/

/-- The call number `i` waits for the hooks. -/
def idle (b : Bench X Y D M) (i : Nat) (x : X) (g : G Y D M) (c : Nat) : BP Y D M where
  batch := [.clock]
  n := tb b i + b.refs.length
  lv := fun t =>
    if t = 0 then
      some (.pend (.join (tb b i) (fun _ => .join i (List.range' (tb b i + 1) (b.refs.length - 1))) .failed))
    else if tb b i ≤ t ∧ t < tb b i + b.refs.length then some (.pend (.ev (eb b i + (t - tb b i)) .wait1))
    else none
  hooks := hookList b i x
  g := g
  cycles := c
  ev := fun e => decide (1 ≤ e ∧ e < eb b i)
  waiters := fun e => if eb b i ≤ e ∧ e < eb b i + b.refs.length then [tb b i + (e - eb b i)] else []
  joiners := upd (fun _ => []) (tb b i) [0]

/-- The method of call number `i` runs. -/
def driving (b : Bench X Y D M) (i : Nat) (p : Meth Y D) (g : G Y D M) (c : Nat) : BP Y D M where
  cur := some (0, .meth i p)
  batch := [.clock]
  n := tb b i + b.refs.length
  lv := fun t => if t = 0 then some .running else none
  g := g
  cycles := c
  ev := fun e => decide (1 ≤ e ∧ e < eb b i + b.refs.length)
  waiters := fun _ => []
  joiners := fun _ => []

/-- The event of a hook. -/
def evOf (H : Hook (Pc Y D) (G Y D M) Unit) : Nat := H.done.getD 0

theorem plain_hook (i : Nat) (x : X) (j : Nat) (r : Ref X Y M) :
    Plain (hook b i x j r) (evOf (hook b i x j r)) := ⟨rfl, fun _ => rfl, fun _ => rfl⟩

theorem evOf_hook (i : Nat) (x : X) (j : Nat) (r : Ref X Y M) :
    evOf (hook b i x j r) = eb b i + j := evNum_eq i j

theorem hookList_evs (i : Nat) (x : X) :
    (hookList b i x).map (fun q => evOf q.1) = List.range' (eb b i) b.refs.length := by
  have : (hookList b i x).map (fun q => evOf q.1) = (b.refs.zipIdx.map Prod.snd).map (eb b i + ·) := by
    simp only [hookList, List.map_map]
    refine List.map_congr_left fun q _ => ?_
    simp only [Function.comp_apply, evOf_hook]
  rw [this, List.zipIdx_map_snd, List.map_add_range']
  simp

/-- The hooks of call `i` ran: its tasks are woken. -/
theorem idle_ending {i : Nat} {x : X} (hN : b.refs ≠ []) {g : G Y D M} {c : Nat} (hr : g.results i = [])
    (st ab : Bool) :
    ∃ t l, (∀ u ∈ t :: l, tb b i ≤ u ∧ u < tb b i + b.refs.length) ∧ (t :: l).Nodup ∧
      tb b i ∈ t :: l ∧
      ∀ s, S { idle b i x g c with stopping := st, aborted := ab } s →
        S { ending i (tb b i) (eb b i) b.refs.length (t :: l) false
              (fun e => decide (1 ≤ e ∧ e < eb b i + b.refs.length))
              ⟨g.dut, stepRefs b g.ref x, upd g.results i (outs b g.ref x)⟩ c with
            batch := [], ready := (t :: l).map .task ++ [.clock], stopping := st, aborted := ab }
          (step (sys b xs) [] s) := by
  have hpos : 0 < b.refs.length := List.length_pos_iff.2 hN
  have htb := tb_pos (b := b) i
  have heb := eb_pos (b := b) i
  have hperm : ((plan b).map fun q => tb b i + q.1.1).Perm (List.range' (tb b i) b.refs.length) := by
    have := (plan_perm (b := b)).map (tb b i + ·)
    rw [List.map_map, List.range_eq_range', List.map_add_range'] at this
    simpa [Function.comp_def] using this
  have memL : ∀ u, u ∈ ((plan b).map fun q => tb b i + q.1.1) ↔ tb b i ≤ u ∧ u < tb b i + b.refs.length := by
    intro u
    rw [hperm.mem_iff, List.mem_range'_1]
  obtain ⟨t, l, hl⟩ : ∃ t l, ((plan b).map fun q => tb b i + q.1.1) = t :: l := by
    cases h : ((plan b).map fun q => tb b i + q.1.1) with
    | nil =>
      have := (memL (tb b i)).2 (by omega)
      rw [h] at this
      cases this
    | cons t l => exact ⟨t, l, rfl⟩
  rw [hl] at memL hperm
  refine ⟨t, l, fun u hu => (memL u).1 hu, hperm.nodup_iff.2 List.nodup_range', (memL _).2 (by omega), ?_⟩
  intro s hs
  have hlen : (hookList b i x).length = b.refs.length := by simp [hookList]
  have key := clockHooks (sys := sys b xs) hs rfl rfl rfl
    (by
      intro t
      show busy (idle b i x g c |>.lv t) = false
      simp only [idle]
      split
      · rfl
      · split <;> rfl) rfl evOf
    (by
      show hookList b i x ≠ []
      intro e
      rw [e] at hlen
      exact absurd hlen (by simp; omega))
    (by
      intro q hq
      obtain ⟨a, _, rfl⟩ := List.mem_map.1 (show q ∈ hookList b i x from hq)
      exact plain_hook ..)
    (by
      show ((hookList b i x).map fun q => evOf q.1).Nodup
      rw [hookList_evs]; exact List.nodup_range')
    (by
      intro q hq
      have : evOf q.1 ∈ (hookList b i x).map fun q => evOf q.1 := List.mem_map.2 ⟨q, hq, rfl⟩
      rw [hookList_evs, List.mem_range'_1] at this
      show decide (1 ≤ evOf q.1 ∧ evOf q.1 < eb b i) = false
      exact decide_eq_false (by omega)) rfl
  have e1 : (Priority.sorted (hookList b i x)).map (fun q => (q.1, evOf q.1)) =
      (plan b).map fun q => (hook b i x q.1.1 q.1.2, eb b i + q.1.1) := by
    rw [sorted_hookList, List.map_map]
    refine List.map_congr_left fun q _ => ?_
    simp only [Function.comp_apply, evOf_hook]
  have ePlan : ((plan b).map fun q => eb b i + q.1.1).Perm (List.range' (eb b i) b.refs.length) := by
    have := (plan_perm (b := b)).map (eb b i + ·)
    rw [List.map_map, List.range_eq_range', List.map_add_range'] at this
    simpa [Function.comp_def] using this
  have e2 : ((plan b).map fun q => (hook b i x q.1.1 q.1.2, eb b i + q.1.1)).map (·.2) =
      (plan b).map fun q => eb b i + q.1.1 := by
    rw [List.map_map]; rfl
  have key2 : S _ (step (sys b xs) [] s) := key
  rw [show Priority.sorted ({ idle b i x g c with stopping := st, aborted := ab } : BP Y D M).hooks =
    Priority.sorted (hookList b i x) from rfl, e1, afterAll_eq _ _ (by
      rw [e2]; exact ePlan.nodup_iff.2 List.nodup_range')] at key2
  have hw : ((plan b).map fun q => (hook b i x q.1.1 q.1.2, eb b i + q.1.1)).flatMap
      (fun q => (idle b i x g c).waiters q.2) = t :: l := by
    rw [← hl, List.flatMap_map]
    have : ∀ q ∈ plan b, (idle b i x g c).waiters (eb b i + q.1.1) = [tb b i + q.1.1] := by
      intro q hq
      have := mem_plan hq
      have hlt : q.1.1 < b.refs.length := (List.getElem?_eq_some_iff.1 this).1
      simp only [idle]
      rw [if_pos (by omega)]
      congr 2
      omega
    rw [List.flatMap_def, List.map_congr_left this, ← List.flatMap_def]
    exact List.map_eq_flatMap.symm
  have hmem : ∀ e, e ∈ ((plan b).map fun q => (hook b i x q.1.1 q.1.2, eb b i + q.1.1)).map (·.2) ↔
      eb b i ≤ e ∧ e < eb b i + b.refs.length := by
    intro e
    rw [e2, ePlan.mem_iff, List.mem_range'_1]
  have hfold : ((plan b).map fun q => (hook b i x q.1.1 q.1.2, eb b i + q.1.1)).foldl
      (fun g q => (q.1.run g).1) g = ⟨g.dut, stepRefs b g.ref x, upd g.results i (outs b g.ref x)⟩ := by
    rw [List.foldl_map]; exact fold_plan i x g hr
  refine Eq.mp (congrArg (fun q => S q (step (sys b xs) [] s)) ?_) key2
  have hBl : tb b i ∈ t :: l := (memL _).2 (by omega)
  show P.mk _ _ _ _ _ _ _ _ _ _ _ _ _ _ _ _ = P.mk _ _ _ _ _ _ _ _ _ _ _ _ _ _ _ _
  congr 1
  · show (List.map _ (List.flatMap _ _)) ++ _ = _
    rw [hw]
  · funext u
    show (if u ∈ List.flatMap _ _ then Option.map Status.finish ((idle b i x g c).lv u)
      else (idle b i x g c).lv u) = _
    rw [hw]
    simp only [idle, ending, hBl, if_true]
    by_cases h0 : u = 0
    · subst h0
      have : 0 ∉ t :: l := fun h => by have := (memL 0).1 h; omega
      simp only [this, if_false, if_true]
    · simp only [h0, if_false]
      by_cases h1 : u ∈ t :: l
      · rw [if_pos h1, if_pos ((memL u).1 h1), if_pos h1]
        rfl
      · have := fun h => h1 ((memL u).2 h)
        rw [if_neg h1, if_neg this, if_neg h1, if_neg this]
  · funext e
    show (if e ∈ List.map _ _ then true else decide (1 ≤ e ∧ e < eb b i)) = _
    by_cases h1 : eb b i ≤ e ∧ e < eb b i + b.refs.length
    · rw [if_pos ((hmem e).2 h1)]
      exact (decide_eq_true (by omega)).symm
    · rw [if_neg (fun h => h1 ((hmem e).1 h))]
      exact decide_eq_decide.mpr (by omega)
  · funext e
    show (if e ∈ List.map _ _ then [] else (idle b i x g c).waiters e) = []
    by_cases h1 : eb b i ≤ e ∧ e < eb b i + b.refs.length
    · rw [if_pos ((hmem e).2 h1)]
    · rw [if_neg (fun h => h1 ((hmem e).1 h))]
      simp only [idle]
      rw [if_neg h1]
  · simp only [ending, hBl, if_true]
    rfl

/-- The hooks of call `i` run, `gather` returns, and the method begins. -/
theorem idle_driving {i : Nat} {x : X} (hN : b.refs ≠ []) (hx : xs[i]? = some x) {g : G Y D M} {c : Nat}
    (hr : g.results i = []) :
    To (sys b xs) (idle b i x g c)
      (driving b i (b.method x) ⟨g.dut, stepRefs b g.ref x, upd g.results i (outs b g.ref x)⟩ c) := by
  have hpos : 0 < b.refs.length := List.length_pos_iff.2 hN
  have htb := tb_pos (b := b) i
  obtain ⟨t, l, hm, hn, hB, h1⟩ := idle_ending (b := b) (xs := xs) (i := i) (x := x) hN (c := c) hr false false
  refine To.one h1 ?_
  refine To.one (fun s h => newBatch h rfl rfl rfl) ?_
  refine To.trans (To.eq ?_) ((ending_loop (b := b) (xs := xs) (i := i) (E := eb b i) htb l t false hm hn
    (ev := fun e => decide (1 ≤ e ∧ e < eb b i + b.refs.length))
    (g := ⟨g.dut, stepRefs b g.ref x, upd g.results i (outs b g.ref x)⟩) (c := c)).trans ?_)
  · simp only [ending, hB, if_true]
  simp only [ending, List.not_mem_nil, if_false, List.map_nil, List.nil_append]
  refine To.one (fun s h => clockBusy h rfl rfl rfl 0 (by simp; omega) (by simp [busy])) ?_
  refine To.one (fun s h => newBatch h rfl rfl rfl) ?_
  norm
  refine To.one (fun s h => runJoin (v := ()) (t := 0) (u := tb b i)
    (k := fun _ => .join i (List.range' (tb b i + 1) (b.refs.length - 1))) (kx := .failed)
    h rfl rfl (by simp) (by dsimp only; rw [if_neg (by omega), if_pos (by omega)])) ?_
  refine (join_loop _ _ rfl ?_).trans ?_
  · intro u hu
    rw [List.mem_range'_1] at hu
    simp only [upd, show u ≠ 0 by omega, if_false]
    rw [if_pos (by omega)]
  refine To.one (fun s h => exComp h rfl (prog_drive hx _)) ?_
  refine To.weaken (fun t => if t = 0 then some .running else none) ?_ (To.eq rfl)
  intro u
  by_cases h0 : u = 0
  · subst h0; exact .inl (by simp [upd])
  · simp only [upd, h0, if_false]
    split
    · exact .inr ⟨by simp, _, rfl⟩
    · exact .inl rfl

theorem driving_ret {i : Nat} (p : Meth Y D) : ∀ (g : G Y D M) (c : Nat),
    To (sys b xs) (driving b i p g c)
      (driving b i (.ret (runMeth b.clk p g.dut).1) { g with dut := (runMeth b.clk p g.dut).2.1 }
        (c + (runMeth b.clk p g.dut).2.2)) := by
  induction p with
  | ret y => exact fun g c => To.refl
  | read k ih =>
    intro g c
    refine To.one (fun s h => exComp (k' := .meth i (k g.dut)) (g := g) h rfl rfl) ?_
    exact ih g.dut g c
  | write f k ih =>
    intro g c
    refine To.one (fun s h => exComp (k' := .meth i k) (g := { g with dut := f g.dut }) h rfl rfl) ?_
    exact ih { g with dut := f g.dut } c
  | step k ih =>
    intro g c
    unfold driving
    refine To.one (fun s h => exWait (t := 0) (e := 0) (k' := .meth i k) h rfl rfl (by simp)) ?_
    norm
    refine To.one (fun s h => clockStep h rfl rfl rfl ?_ rfl rfl rfl ?_ rfl) ?_
    · intro t
      by_cases h1 : t = 0
      · subst h1; simp [upd, busy]
      · simp [upd, h1, busy]
    · simp
    norm
    refine To.one (fun s h => newBatch h rfl rfl rfl) ?_
    norm
    refine To.one (fun s h => runEv (t := 0) (e := 0) (k := .meth i k) h rfl rfl (by simp [Status.finish])) ?_
    norm
    refine To.trans (To.eq ?_) ((ih { g with dut := b.clk g.dut } (c + 1)).trans (To.eq ?_))
    · unfold driving
      congr 1
      · funext t
        by_cases h1 : t = 0
        · subst h1; simp [upd]
        · simp [upd, h1]
      · funext e
        by_cases h1 : e = 0
        · subst h1; simp [upd]
        · simp [upd, h1]
    · unfold driving
      simp only [runMeth]
      congr 1
      omega

/-- The result of call `i` is to be compared, while call `i + 1` is about to wait for the hooks. -/
def compare (b : Bench X Y D M) (i : Nat) (x : X) (y : Y) (g : G Y D M) (c : Nat) : BP Y D M where
  batch := .task (tb b i + b.refs.length) :: ((List.range' (tb b (i + 1)) b.refs.length).map .task ++ [.clock])
  n := tb b (i + 1) + b.refs.length
  lv := fun t =>
    if t = 0 then some (.pend (.join (tb b (i + 1))
      (fun _ => .join (i + 1) (List.range' (tb b (i + 1) + 1) (b.refs.length - 1))) .failed))
    else if t = tb b i + b.refs.length then some (.ready (.background i y))
    else if tb b (i + 1) ≤ t ∧ t < tb b (i + 1) + b.refs.length then
      some (.ready (.wait (eb b (i + 1) + (t - tb b (i + 1)))))
    else none
  hooks := hookList b (i + 1) x
  g := g
  cycles := c
  ev := fun e => decide (1 ≤ e ∧ e < eb b (i + 1))
  waiters := fun _ => []
  joiners := upd (fun _ => []) (tb b (i + 1)) [0]

/-- The test makes call `i`, up to `gather` awaiting its first task. -/
theorem call_loop {i : Nat} {x : X} (hN : b.refs ≠ []) (hx : xs[i]? = some x) (p : BP Y D M)
    (hc : p.cur = some (0, .call i)) :
    To (sys b xs) p
      { p with
        cur := none
        hooks := p.hooks ++ hookList b i x
        n := p.n + b.refs.length
        ready := p.ready ++ (List.range' p.n b.refs.length).map .task
        lv := upd (fun t => if p.n ≤ t ∧ t < p.n + b.refs.length then
          some (.ready (.wait (eb b i + (t - p.n)))) else p.lv t) 0
            (some (.pend (.join p.n (fun _ => .join i (List.range' (p.n + 1) (b.refs.length - 1))) .failed)))
        joiners := upd p.joiners p.n (p.joiners p.n ++ [0]) } := by
  have hpos : 0 < b.refs.length := List.length_pos_iff.2 hN
  refine To.one (fun s h => exComp h hc (prog_call hx _)) ?_
  refine (hooks_loop hx b.refs.length 0 _ (by omega) rfl).trans ?_
  refine (gather_loop b.refs.length 0 [] _ (by omega) rfl).trans ?_
  obtain ⟨K, hK⟩ : ∃ K, b.refs.length = K + 1 := ⟨b.refs.length - 1, by omega⟩
  simp only [List.nil_append, List.drop_zero]
  have hr : List.range' p.n b.refs.length = p.n :: List.range' (p.n + 1) (b.refs.length - 1) := by
    rw [hK, List.range'_succ]; rfl
  refine To.one (fun s h => exJoin (u := p.n) (k1 := .wait (eb b i))
    (k' := fun _ => .join i (List.range' (p.n + 1) (b.refs.length - 1))) (kx := .failed) h rfl ?_ ?_) (To.eq rfl)
  · show prog b xs (.join i (List.range' p.n b.refs.length)) _ = _
    rw [hr]; rfl
  · dsimp only
    rw [if_pos (by omega)]
    simp

theorem driving_compare {i : Nat} {x : X} (hN : b.refs ≠ []) (hx : xs[i + 1]? = some x) {y : Y} {g : G Y D M}
    {c : Nat} : To (sys b xs) (driving b i (.ret y) g c) (compare b i x y g c) := by
  have hpos : 0 < b.refs.length := List.length_pos_iff.2 hN
  have htb := tb_pos (b := b) i
  have hts := tb_succ (b := b) i
  have hes := eb_succ (b := b) i
  unfold driving
  refine To.one (fun s h => exSpawn h rfl rfl) ?_
  norm
  refine (call_loop hN hx _ rfl).trans ?_
  norm
  refine To.one (fun s h => clockBusy h rfl rfl rfl (tb b i + b.refs.length) (by simp; omega) ?_) ?_
  · simp only [upd, show ¬ (tb b i + b.refs.length = 0) by omega, if_false, if_true]
    rw [if_neg (by omega)]
    rfl
  refine To.one (fun s h => newBatch h rfl rfl rfl) ?_
  norm
  refine To.eq ?_
  unfold compare
  rw [hts, hes]
  congr 1
  funext t
  by_cases h1 : t = 0
  · subst h1; simp [upd]
  · by_cases h2 : t = tb b i + b.refs.length
    · subst h2
      simp only [upd, h1, if_false, if_true]
      rw [if_neg (by omega)]
    · simp [upd, h1, h2]

theorem waiting_idle {i : Nat} {x : X} {g : G Y D M} {c : Nat} (st ab : Bool) :
    To (sys b xs)
      ({ batch := (List.range' (tb b i) b.refs.length).map .task ++ [.clock]
         n := tb b i + b.refs.length
         lv := fun t =>
          if t = 0 then
            some (.pend (.join (tb b i) (fun _ => .join i (List.range' (tb b i + 1) (b.refs.length - 1))) .failed))
          else if tb b i ≤ t ∧ t < tb b i + b.refs.length then
            some (.ready (.wait (eb b i + (t - tb b i))))
          else none
         hooks := hookList b i x
         g := g
         cycles := c
         ev := fun e => decide (1 ≤ e ∧ e < eb b i)
         waiters := fun _ => []
         joiners := upd (fun _ => []) (tb b i) [0]
         stopping := st
         aborted := ab } : BP Y D M)
      { idle b i x g c with stopping := st, aborted := ab } := by
  have htb := tb_pos (b := b) i
  refine (wait_loop b.refs.length (tb b i) (eb b i) [.clock] _ rfl rfl ?_ ?_).trans (To.eq ?_)
  · intro j hj
    simp only [show ¬ (tb b i + j = 0) by omega, if_false]
    rw [if_pos (by omega)]
    congr 3
    omega
  · intro j hj
    exact decide_eq_false (by omega)
  · unfold idle
    show P.mk _ _ _ _ _ _ _ _ _ _ _ _ _ _ _ _ = P.mk _ _ _ _ _ _ _ _ _ _ _ _ _ _ _ _
    congr 1
    funext t
    by_cases h0 : t = 0
    · subst h0
      rw [if_neg (by omega)]; rfl
    · by_cases h1 : tb b i ≤ t ∧ t < tb b i + b.refs.length
      · simp only [h0, h1, if_true, if_false, and_self]
      · simp only [h0, h1, if_false]

theorem compare_good {i : Nat} {x : X} {y : Y} {g : G Y D M} {c : Nat}
    (h : (g.results i).all (agrees b y) = true) :
    To (sys b xs) (compare b i x y g c) (idle b (i + 1) x g c) := by
  have htb := tb_pos (b := b) i
  have hts := tb_succ (b := b) i
  unfold compare
  refine To.one (fun s h => runReady (t := tb b i + b.refs.length) (k := .background i y) h rfl rfl (by
    simp only [show ¬ (tb b i + b.refs.length = 0) by omega, if_false, if_true])) ?_
  refine To.one (fun s h' => exRet h' rfl (prog_good h) (by omega)) ?_
  have hj : upd (fun _ => []) (tb b (i + 1)) [0] (tb b i + b.refs.length) = ([] : List Nat) := by
    simp only [upd]; rw [if_neg (by omega)]
  simp only [hj, List.map_nil, List.append_nil, List.not_mem_nil, if_false]
  refine To.weaken (fun t =>
          if t = 0 then
            some (.pend (.join (tb b (i + 1))
              (fun _ => .join (i + 1) (List.range' (tb b (i + 1) + 1) (b.refs.length - 1))) .failed))
          else if tb b (i + 1) ≤ t ∧ t < tb b (i + 1) + b.refs.length then
            some (.ready (.wait (eb b (i + 1) + (t - tb b (i + 1)))))
          else none) ?_ ?_
  · intro t
    by_cases h0 : t = 0
    · subst h0
      refine .inl ?_
      simp only [if_true, upd]
      rw [if_neg (by omega), if_neg (by omega)]
    · by_cases h1 : t = tb b i + b.refs.length
      · subst h1
        refine .inr ⟨?_, some (), by simp only [upd, if_true]⟩
        simp only [h0, if_false]
        rw [if_neg (by omega)]
      · refine .inl ?_
        simp only [upd, h0, h1, if_false]
  refine To.trans (To.eq ?_) (waiting_idle (i := i + 1) (x := x) false false)
  congr 1
  funext e
  simp only [upd]
  by_cases h1 : e = tb b (i + 1)
  · subst h1
    rw [if_neg (by omega)]
  · simp only [h1, if_false, ite_self]

theorem compare_bad {i : Nat} {x : X} {y : Y} {g : G Y D M} {c : Nat} (hN : b.refs ≠ [])
    (h : (g.results i).all (agrees b y) = false) (hr : g.results (i + 1) = []) :
    ∃ q : BP Y D M, To (sys b xs) (compare b i x y g c) q ∧
      q.cur = none ∧ q.batch = [] ∧ q.stopping = true ∧ q.aborted = true ∧
      (∃ w, q.lv 0 = some (.pend w)) ∧ q.g.dut = g.dut ∧ q.cycles = c := by
  have htb := tb_pos (b := b) i
  have hts := tb_succ (b := b) i
  obtain ⟨t, l, hm, hn, hB, h1⟩ := idle_ending (b := b) (xs := xs) (i := i + 1) (x := x) hN (c := c) hr true true
  refine ⟨_, To.trans ?_ (To.one h1 To.refl), ?_⟩
  · unfold compare
    refine To.one (fun s h => runReady (t := tb b i + b.refs.length) (k := .background i y) h rfl rfl (by
      simp only [show ¬ (tb b i + b.refs.length = 0) by omega, if_false, if_true])) ?_
    refine To.one (fun s h' => exRaise h' rfl (prog_bad h) (by omega) (by
      simp only [upd]; rw [if_neg (by omega)])) ?_
    refine To.trans (To.eq ?_) (waiting_idle (i := i + 1) (x := x) true true)
    congr 1
    funext t
    by_cases h0 : t = 0
    · subst h0
      simp only [upd, if_true]
      rw [if_neg (by omega), if_neg (by omega)]
    · by_cases h1 : t = tb b i + b.refs.length
      · subst h1
        simp only [upd, if_true, h0, if_false]
        rw [if_neg (by omega)]
      · simp only [upd, h0, h1, if_false]
  · refine ⟨rfl, rfl, rfl, rfl, ?_, rfl, rfl⟩
    simp only [ending, if_true, hB]
    exact ⟨_, rfl⟩

/-- The test is done and only the clock is left. -/
def closing (n : Nat) (ev : Nat → Bool) (g : G Y D M) (c : Nat) : BP Y D M where
  batch := [.clock]
  n := n
  lv := fun t => if t = 0 then some (.pend (.final ())) else none
  testDone := true
  g := g
  cycles := c
  ev := ev
  waiters := upd (fun _ => []) 0 [0]
  joiners := fun _ => []

theorem closing_end {n : Nat} {ev : Nat → Bool} {g : G Y D M} {c : Nat} (hev : ev 0 = false) :
    ∃ q : BP Y D M, To (sys b xs) (closing n ev g c) q ∧
      q.cur = none ∧ q.batch = [] ∧ q.stopping = true ∧ q.aborted = false ∧
      q.lv 0 = some (.done (some ())) ∧
      q.g = { g with dut := b.clk (b.clk g.dut) } ∧ q.cycles = c + 2 := by
  refine ⟨?q, ?_, ?_⟩
  rotate_left
  · unfold closing
    refine To.one (fun s h => clockCancel h rfl rfl rfl ?_ rfl rfl rfl rfl) ?_
    · intro t
      by_cases h1 : t = 0 <;> simp [h1, busy]
    refine To.one (fun s h => newBatch h rfl rfl rfl) ?_
    norm
    simp only [List.filter_nil, List.nil_append]
    refine To.one (fun s h => clockAfter h rfl rfl rfl hev) ?_
    refine To.one (fun s h => newBatch h rfl rfl rfl) ?_
    norm
    simp only [List.filter, beq_self_eq_true, List.map_cons, List.map_nil, List.cons_append, List.nil_append]
    refine To.one (fun s h => runFinal (v := ()) h rfl rfl (by simp [Status.finish]) rfl) ?_
    norm
    refine To.one (fun s h => clockCancel h rfl rfl rfl ?_ rfl rfl rfl rfl) ?_
    · intro t
      by_cases h1 : t = 0 <;> simp [h1, busy, upd]
    refine To.one (fun s h => newBatch h rfl rfl rfl) ?_
    norm
    simp only [List.filter, List.cons_append, List.nil_append]
    refine To.one (fun s h => runStop h rfl rfl) ?_
    refine To.one (fun s h => clockAfter h rfl rfl rfl hev) ?_
    exact To.refl
  · refine ⟨rfl, rfl, rfl, rfl, ?_, rfl, rfl⟩
    simp

/-- The result of the last call is to be compared, and the test has returned. -/
def last (b : Bench X Y D M) (i : Nat) (y : Y) (g : G Y D M) (c : Nat) : BP Y D M where
  batch := [.task (tb b i + b.refs.length), .clock]
  n := tb b i + b.refs.length + 1
  lv := fun t =>
    if t = 0 then some (.pend (.final ()))
    else if t = tb b i + b.refs.length then some (.ready (.background i y))
    else none
  testDone := true
  g := g
  cycles := c
  ev := fun e => decide (1 ≤ e ∧ e < eb b (i + 1))
  waiters := upd (fun _ => []) 0 [0]
  joiners := fun _ => []

theorem driving_last {i : Nat} (hx : xs[i + 1]? = none) {y : Y} {g : G Y D M} {c : Nat} :
    To (sys b xs) (driving b i (.ret y) g c) (last b i y g c) := by
  have htb := tb_pos (b := b) i
  unfold driving
  refine To.one (fun s h => exSpawn h rfl rfl) ?_
  norm
  refine To.one (fun s h => exRetMain h rfl (prog_end hx _) (by simp) (by simp)) ?_
  norm
  refine To.one (fun s h => clockBusy h rfl rfl rfl (tb b i + b.refs.length) (by simp) ?_) ?_
  · simp only [upd, show ¬ (tb b i + b.refs.length = 0) by omega, if_false, if_true]
    rfl
  refine To.one (fun s h => newBatch h rfl rfl rfl) ?_
  norm
  refine To.eq ?_
  unfold last
  congr 1
  · funext t
    by_cases h1 : t = 0
    · subst h1; simp [upd]
    · simp only [upd, h1, if_false]
  · rw [eb_succ]

theorem last_good {i : Nat} {y : Y} {g : G Y D M} {c : Nat} (h : (g.results i).all (agrees b y) = true) :
    To (sys b xs) (last b i y g c)
      (closing (tb b i + b.refs.length + 1) (fun e => decide (1 ≤ e ∧ e < eb b (i + 1))) g c) := by
  have htb := tb_pos (b := b) i
  unfold last
  refine To.one (fun s h => runReady (t := tb b i + b.refs.length) (k := .background i y) h rfl rfl (by
    simp only [show ¬ (tb b i + b.refs.length = 0) by omega, if_false, if_true])) ?_
  refine To.one (fun s h' => exRet h' rfl (prog_good h) (by omega)) ?_
  simp only [List.map_nil, List.append_nil]
  refine To.forget (tb b i + b.refs.length) (some ()) (by simp [upd]) ?_
  refine To.eq ?_
  unfold closing
  congr 1
  · funext t
    by_cases h1 : t = 0
    · subst h1
      simp only [upd, if_true]
      have h2 : ¬ 0 = tb b i + b.refs.length := by omega
      simp [h2]
    · by_cases h2 : t = tb b i + b.refs.length
      · simp only [upd, h2, if_true]
        rw [if_neg (by omega)]
      · simp [upd, h1, h2]
  · funext e
    simp [upd]

theorem last_bad {i : Nat} {y : Y} {g : G Y D M} {c : Nat} (h : (g.results i).all (agrees b y) = false) :
    ∃ q : BP Y D M, To (sys b xs) (last b i y g c) q ∧
      q.cur = none ∧ q.batch = [] ∧ q.stopping = true ∧ q.aborted = true ∧
      q.lv 0 = some (.pend (.final ())) ∧ q.g = g ∧ q.cycles = c := by
  have htb := tb_pos (b := b) i
  refine ⟨?q, ?_, ?_⟩
  rotate_left
  · unfold last
    refine To.one (fun s h => runReady (t := tb b i + b.refs.length) (k := .background i y) h rfl rfl (by
      simp only [show ¬ (tb b i + b.refs.length = 0) by omega, if_false, if_true])) ?_
    refine To.one (fun s h' => exRaise h' rfl (prog_bad h) (by omega) rfl) ?_
    norm
    refine To.one (fun s h => clockCancel h rfl rfl rfl ?_ rfl rfl rfl rfl) ?_
    · intro t
      by_cases h2 : t = tb b i + b.refs.length
      · simp only [upd, h2, if_true]; rfl
      · by_cases h1 : t = 0
        · simp only [upd, h1, if_true]
          rw [if_neg (by omega), if_neg (by omega)]; rfl
        · simp only [upd, h1, h2, if_false]; rfl
    exact To.refl
  · refine ⟨rfl, rfl, rfl, rfl, ?_, rfl, rfl⟩
    simp only [upd, if_true]
    rw [if_neg (by omega), if_neg (by omega)]

/-! ### The beginning -/

def begin (g : G Y D M) : BP Y D M where
  ready := [.task 0]
  n := 1
  lv := fun t => if t = 0 then some (.ready .start) else none
  clock := .off
  g := g
  cycles := 0
  ev := fun _ => false
  waiters := fun _ => []
  joiners := fun _ => []

theorem begin_start (d : D) (m : M) :
    S (begin ⟨d, m, fun _ => []⟩) (start (Y := Y) d m) := by
  constructor <;> try rfl
  intro t
  by_cases h : t = 0
  · subst h; rfl
  · simp only [begin, start, init, h, if_false]
    exact ⟨none, rfl⟩

theorem begin_idle {x : X} (hN : b.refs ≠ []) (hx : xs[0]? = some x) {g : G Y D M} :
    To (sys b xs) (begin g) (idle b 0 x g 0) := by
  have hpos : 0 < b.refs.length := List.length_pos_iff.2 hN
  unfold begin
  refine To.one (fun s h => newBatch h rfl rfl rfl) ?_
  refine To.one (fun s h => runReady (t := 0) (k := .start) h rfl rfl rfl) ?_
  refine To.one (fun s h => exStart h rfl rfl rfl) ?_
  norm
  refine (call_loop hN hx _ rfl).trans ?_
  norm
  refine To.one (fun s h => newBatch h rfl rfl rfl) ?_
  norm
  refine To.one (fun s h => clockBegin h rfl rfl rfl) ?_
  refine (wait_loop b.refs.length 1 (eb b 0) [] _ rfl (by simp) ?_ ?_).trans ?_
  · intro j hj
    simp only [upd, show ¬ (1 + j = 0) by omega, if_false]
    rw [if_pos (by omega)]
    congr 3
    omega
  · intro j hj
    rfl
  refine To.one (fun s h => newBatch h rfl rfl rfl) ?_
  norm
  refine To.eq ?_
  unfold idle
  rw [tb_zero, eb_zero]
  congr 1
  · funext t
    by_cases h0 : t = 0
    · subst h0
      rw [if_neg (by omega)]; rfl
    · by_cases h1 : 1 ≤ t ∧ t < 1 + b.refs.length
      · simp only [h0, h1, if_true, if_false, and_self]
      · simp only [h0, h1, if_false]
  · funext e
    exact (decide_eq_false (by omega)).symm

theorem begin_closing (hx : xs = []) {g : G Y D M} :
    To (sys b xs) (begin g) (closing 1 (fun _ => false) g 0) := by
  unfold begin
  refine To.one (fun s h => newBatch h rfl rfl rfl) ?_
  refine To.one (fun s h => runReady (t := 0) (k := .start) h rfl rfl rfl) ?_
  refine To.one (fun s h => exStart h rfl rfl rfl) ?_
  norm
  refine To.one (fun s h => exRetMain h rfl (prog_end (by rw [hx]; rfl) _) (by simp) rfl) ?_
  refine To.one (fun s h => newBatch h rfl rfl rfl) ?_
  norm
  refine To.one (fun s h => clockBegin h rfl rfl rfl) ?_
  refine To.one (fun s h => newBatch h rfl rfl rfl) ?_
  norm
  refine To.eq ?_
  unfold closing
  congr 1
  funext t
  by_cases h1 : t = 0
  · subst h1; simp [upd]
  · simp [upd, h1]

end Toffee.Bench
