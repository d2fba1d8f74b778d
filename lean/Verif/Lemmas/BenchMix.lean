import Verif.Model.BenchMix
import Verif.Lemmas.Bench

/-! The run of the test bench of `Verif.Model.BenchMix`: pieces. -/

namespace Toffee.BenchMix

open Toffee.Loop Toffee.LoopSym
open Toffee.Bench (runMeth)

variable {X Y D M : Type}

abbrev BP (Y D M : Type) := P (Pc Y D) (G Y D M) Unit

variable {b : Bench X Y D M} {xs : List X} {xa : Nat → X} {ra : Nat → Ref X Y M}

/-- `xa i` is the stimulus of call `i`; `ra j` is the hook number `j`, those in `post` coming after those in
`pre`. -/
structure Gh (b : Bench X Y D M) (xs : List X) (xa : Nat → X) (ra : Nat → Ref X Y M) : Prop where
  x : ∀ i < xs.length, xs[i]? = some (xa i)
  pre : ∀ j < b.pre.length, b.pre[j]? = some (ra j)
  post : ∀ j < b.post.length, b.post[j]? = some (ra (b.pre.length + j))

/-- The request of hook `q.2` of call `q.1`. -/
def req (b : Bench X Y D M) (xa : Nat → X) (ra : Nat → Ref X Y M) (q : Nat × Nat) :
    Hook (Pc Y D) (G Y D M) Unit × Int :=
  (hook b q.1 (xa q.1) q.2 (ra q.2), (ra q.2).prio)

theorem evNum_add (i j m : Nat) : evNum b i (j + m) = evNum b i j + m := by unfold evNum; omega

theorem evNum_pos (i j : Nat) : 1 ≤ evNum b i j := by unfold evNum; omega

theorem evNum_succ (i : Nat) : evNum b (i + 1) 0 = evNum b i (b.pre.length + b.post.length) := by
  unfold evNum; rw [Nat.succ_mul]; omega

/-! ### The program, command by command -/

theorem prog_call {i : Nat} (hi : i < xs.length) (h : Gh b xs xa ra) (g : G Y D M) :
    (sys b xs).prog (.call i) g = .comp g (.hooks i 0) := by
  simp only [sys, prog, h.x i hi]

theorem prog_end {i : Nat} (hi : xs.length ≤ i) (g : G Y D M) : (sys b xs).prog (.call i) g = .ret () := by
  simp only [sys, prog, List.getElem?_eq_none hi]

theorem prog_hook {i j : Nat} (h : Gh b xs xa ra) (hi : i < xs.length) (hj : j < b.pre.length) (g : G Y D M) :
    (sys b xs).prog (.hooks i j) g =
      .addHook (req b xa ra (i, j)).1 (req b xa ra (i, j)).2 (.hooks i (j + 1)) := by
  simp only [sys, prog, h.x i hi, h.pre j hj, req]

theorem prog_hooks {i j : Nat} (hj : b.pre.length ≤ j) (g : G Y D M) :
    (sys b xs).prog (.hooks i j) g = .comp g (.gather i 0 []) := by
  simp only [sys, prog, List.getElem?_eq_none hj]
  split
  · rename_i h; cases h
  · rfl

theorem prog_gather {i j : Nat} {ts : List Nat} (hj : j < b.pre.length) (g : G Y D M) :
    (sys b xs).prog (.gather i j ts) g =
      .spawn (.wait (evNum b i j)) (fun t => .gather i (j + 1) (ts ++ [t])) := by
  simp only [sys, prog, hj, if_true]

theorem prog_gathered {i j : Nat} {ts : List Nat} (hj : ¬ j < b.pre.length) (g : G Y D M) :
    (sys b xs).prog (.gather i j ts) g = .comp g (.join i ts) := by
  simp only [sys, prog, hj, if_false]

theorem prog_drive {i : Nat} (h : Gh b xs xa ra) (hi : i < xs.length) (g : G Y D M) :
    (sys b xs).prog (.drive i) g = .comp g (.meth i (b.method (xa i))) := by
  simp only [sys, prog, h.x i hi]

theorem prog_bhook {i j : Nat} {y : Y} (h : Gh b xs xa ra) (hi : i < xs.length) (hj : j < b.post.length)
    (g : G Y D M) :
    (sys b xs).prog (.background i y j) g =
      .addHook (req b xa ra (i, b.pre.length + j)).1 (req b xa ra (i, b.pre.length + j)).2
        (.background i y (j + 1)) := by
  simp only [sys, prog, h.x i hi, h.post j hj, req]

theorem prog_bhooks {i j : Nat} {y : Y} (hj : b.post.length ≤ j) (g : G Y D M) :
    (sys b xs).prog (.background i y j) g = .comp g (.bgather i y 0 []) := by
  simp only [sys, prog, List.getElem?_eq_none hj]
  split
  · rename_i h; cases h
  · rfl

theorem prog_bgather {i j : Nat} {y : Y} {ts : List Nat} (hj : j < b.post.length) (g : G Y D M) :
    (sys b xs).prog (.bgather i y j ts) g =
      .spawn (.wait (evNum b i (b.pre.length + j))) (fun t => .bgather i y (j + 1) (ts ++ [t])) := by
  simp only [sys, prog, hj, if_true]

theorem prog_bgathered {i j : Nat} {y : Y} {ts : List Nat} (hj : ¬ j < b.post.length) (g : G Y D M) :
    (sys b xs).prog (.bgather i y j ts) g = .comp g (.bjoin i y ts) := by
  simp only [sys, prog, hj, if_false]

theorem prog_good {i : Nat} {y : Y} {g : G Y D M} (h : (g.results i).all (agrees b y) = true) :
    (sys b xs).prog (.compare i y) g = .ret () := by
  simp only [sys, prog, h, if_true]

theorem prog_bad {i : Nat} {y : Y} {g : G Y D M} (h : (g.results i).all (agrees b y) = false) :
    (sys b xs).prog (.compare i y) g = .raise false := by
  simp only [sys, prog, h]
  rfl

/-! ### Loops -/

/-- The hooks that run before the method are requested. -/
theorem hooks_loop (h : Gh b xs xa ra) {i : Nat} (hi : i < xs.length) (m : Nat) : ∀ (j : Nat) (p : BP Y D M),
    j + m = b.pre.length → p.cur = some (0, .hooks i j) →
    To (sys b xs) p
      { p with
        cur := some (0, .gather i 0 [])
        hooks := p.hooks ++ (List.range' j m).map fun j => req b xa ra (i, j) } := by
  induction m with
  | zero =>
    intro j p hj hc
    refine To.one (fun s h => exComp h hc (prog_hooks (by omega) _)) (To.eq ?_)
    simp only [List.range'_zero, List.map_nil, List.append_nil]
  | succ m ih =>
    intro j p hj hc
    refine To.one (fun s h' => exHook h' hc (prog_hook h hi (by omega) _)) ?_
    refine (ih (j + 1) _ (by omega) rfl).trans (To.eq ?_)
    simp only [List.range'_succ, List.map_cons, List.append_assoc, List.cons_append, List.nil_append]

/-- `gather` creates its tasks. -/
theorem gather_loop {i : Nat} (m : Nat) : ∀ (j : Nat) (ts : List Nat) (p : BP Y D M),
    j + m = b.pre.length → p.cur = some (0, .gather i j ts) →
    To (sys b xs) p
      { p with
        cur := some (0, .join i (ts ++ List.range' p.n m))
        n := p.n + m
        ready := p.ready ++ (List.range' p.n m).map .task
        lv := fun t => if p.n ≤ t ∧ t < p.n + m then some (.ready (.wait (evNum b i j + (t - p.n))))
          else p.lv t } := by
  induction m with
  | zero =>
    intro j ts p hj hc
    refine To.one (fun s h => exComp h hc (prog_gathered (by omega) _)) (To.eq ?_)
    simp only [List.range'_zero, List.append_nil, List.map_nil, Nat.add_zero]
    congr 1
    funext t
    rw [if_neg (by omega)]
  | succ m ih =>
    intro j ts p hj hc
    refine To.one (fun s h => exSpawn h hc (prog_gather (by omega) _)) ?_
    refine (ih (j + 1) _ _ (by omega) rfl).trans (To.eq ?_)
    simp only [List.range'_succ, List.append_assoc, List.cons_append, List.nil_append, List.map_cons]
    congr 1
    · omega
    · funext t
      by_cases h1 : t = p.n
      · subst h1
        rw [if_neg (by omega), if_pos (by omega)]
        simp [upd]
      · by_cases h2 : p.n + 1 ≤ t ∧ t < p.n + 1 + m
        · rw [if_pos h2, if_pos (by omega), evNum_add]
          congr 3
          omega
        · rw [if_neg h2, if_neg (by omega)]
          simp [upd, h1]

/-- The hooks that run after the method are requested. -/
theorem bhooks_loop (h : Gh b xs xa ra) {A i : Nat} {y : Y} (hi : i < xs.length) (m : Nat) :
    ∀ (j : Nat) (p : BP Y D M), j + m = b.post.length → p.cur = some (A, .background i y j) →
    To (sys b xs) p
      { p with
        cur := some (A, .bgather i y 0 [])
        hooks := p.hooks ++ (List.range' (b.pre.length + j) m).map fun j => req b xa ra (i, j) } := by
  induction m with
  | zero =>
    intro j p hj hc
    refine To.one (fun s h => exComp h hc (prog_bhooks (by omega) _)) (To.eq ?_)
    simp only [List.range'_zero, List.map_nil, List.append_nil]
  | succ m ih =>
    intro j p hj hc
    refine To.one (fun s h' => exHook h' hc (prog_bhook h hi (by omega) _)) ?_
    refine (ih (j + 1) _ (by omega) rfl).trans (To.eq ?_)
    simp only [List.range'_succ, List.map_cons, List.append_assoc, List.cons_append, List.nil_append, Nat.add_assoc]

theorem bgather_loop {A i : Nat} {y : Y} (m : Nat) : ∀ (j : Nat) (ts : List Nat) (p : BP Y D M),
    j + m = b.post.length → p.cur = some (A, .bgather i y j ts) →
    To (sys b xs) p
      { p with
        cur := some (A, .bjoin i y (ts ++ List.range' p.n m))
        n := p.n + m
        ready := p.ready ++ (List.range' p.n m).map .task
        lv := fun t => if p.n ≤ t ∧ t < p.n + m then
            some (.ready (.wait (evNum b i (b.pre.length + j) + (t - p.n))))
          else p.lv t } := by
  induction m with
  | zero =>
    intro j ts p hj hc
    refine To.one (fun s h => exComp h hc (prog_bgathered (by omega) _)) (To.eq ?_)
    simp only [List.range'_zero, List.append_nil, List.map_nil, Nat.add_zero]
    congr 1
    funext t
    rw [if_neg (by omega)]
  | succ m ih =>
    intro j ts p hj hc
    refine To.one (fun s h => exSpawn h hc (prog_bgather (by omega) _)) ?_
    refine (ih (j + 1) _ _ (by omega) rfl).trans (To.eq ?_)
    simp only [List.range'_succ, List.append_assoc, List.cons_append, List.nil_append, List.map_cons]
    congr 1
    · omega
    · funext t
      by_cases h1 : t = p.n
      · subst h1
        rw [if_neg (by omega), if_pos (by omega)]
        simp [upd]
      · by_cases h2 : p.n + 1 ≤ t ∧ t < p.n + 1 + m
        · rw [if_pos h2, if_pos (by omega), ← Nat.add_assoc, evNum_add]
          congr 3
          omega
        · rw [if_neg h2, if_neg (by omega)]
          simp [upd, h1]

/-- The tasks of `gather` begin to wait. -/
theorem wait_loop (m : Nat) : ∀ (B E : Nat) (rest : List Handle) (p : BP Y D M), p.cur = none →
    p.batch = (List.range' B m).map .task ++ rest →
    (∀ j < m, p.lv (B + j) = some (.ready (.wait (E + j)))) → (∀ j < m, p.ev (E + j) = false) →
    To (sys b xs) p
      { p with
        batch := rest
        lv := fun t => if B ≤ t ∧ t < B + m then some (.pend (.ev (E + (t - B)) .wait1)) else p.lv t
        waiters := fun e => if E ≤ e ∧ e < E + m then p.waiters e ++ [B + (e - E)] else p.waiters e } := by
  induction m with
  | zero =>
    intro B E rest p hc hb _ _
    refine To.eq ?_
    obtain ⟨cur, batch, ready, n, lv, flag, hooks, clock, td, g, cyc, ev, wt, jn, stp, ab⟩ := p
    simp only at hc hb
    subst hc
    simp only [List.range'_zero, List.map_nil, List.nil_append] at hb
    subst hb
    congr 1
    · funext t; rw [if_neg (by omega)]
    · funext t; rw [if_neg (by omega)]
  | succ m ih =>
    intro B E rest p hc hb hl he
    rw [List.range'_succ, List.map_cons, List.cons_append] at hb
    refine To.one (fun s h => runReady h hc hb (hl 0 (by omega))) ?_
    refine To.one (fun s h => exWait (e := E) h rfl rfl (he 0 (by omega))) ?_
    refine (ih (B + 1) (E + 1) rest _ rfl rfl ?_ ?_).trans (To.eq ?_)
    · intro j hj
      have := hl (j + 1) (by omega)
      rw [show B + (j + 1) = B + 1 + j by omega, show E + (j + 1) = E + 1 + j by omega] at this
      simp only [upd, show ¬ (B + 1 + j = B) by omega, if_false]
      exact this
    · intro j hj
      have := he (j + 1) (by omega)
      rw [show E + (j + 1) = E + 1 + j by omega] at this
      exact this
    · obtain ⟨cur, batch, ready, n, lv, flag, hooks, clock, td, g, cyc, ev, wt, jn, stp, ab⟩ := p
      simp only at hc
      subst hc
      congr 1
      · funext t
        by_cases h1 : t = B
        · subst h1
          rw [if_neg (by omega), if_pos (by omega)]
          simp [upd]
        · by_cases h2 : B + 1 ≤ t ∧ t < B + 1 + m
          · rw [if_pos h2, if_pos (by omega)]
            congr 3
            omega
          · rw [if_neg h2, if_neg (by omega)]
            simp [upd, h1]
      · funext e
        by_cases h1 : e = E
        · subst h1
          rw [if_neg (by omega), if_pos (by omega)]
          simp [upd]
        · by_cases h2 : E + 1 ≤ e ∧ e < E + 1 + m
          · rw [if_pos h2, if_pos (by omega)]
            simp only [upd, h1, if_false]
            rw [show B + 1 + (e - (E + 1)) = B + (e - E) by omega]
          · rw [if_neg h2, if_neg (by omega)]
            simp [upd, h1]

/-- The tasks of `gather` return, in the order of `l`; the tasks that await them are woken. -/
theorem wake_loop (l : List Nat) : ∀ (rest : List Handle) (p : BP Y D M), p.cur = none →
    p.batch = l.map .task ++ rest → l.Nodup → 0 ∉ l →
    (∀ w ∈ l, ∃ e, p.lv w = some (.fin (.ev e .wait1))) → (∀ w ∈ l, ∀ u ∈ p.joiners w, u ∉ l) →
    To (sys b xs) p
      { p with
        batch := rest
        ready := p.ready ++ (l.flatMap p.joiners).map .task
        flag := p.flag || !l.isEmpty
        lv := fun t => if t ∈ l then some (.done (some ()))
          else if t ∈ l.flatMap p.joiners then (p.lv t).map Status.finish else p.lv t
        joiners := fun t => if t ∈ l then [] else p.joiners t } := by
  induction l with
  | nil =>
    intro rest p hc hb _ _ _ _
    refine To.eq ?_
    obtain ⟨cur, batch, ready, n, lv, flag, hooks, clock, td, g, cyc, ev, wt, jn, stp, ab⟩ := p
    simp only at hc hb
    subst hc
    simp only [List.map_nil, List.nil_append] at hb
    subst hb
    simp
  | cons w l ih =>
    intro rest p hc hb hn h0 hl hj
    rw [List.map_cons, List.cons_append] at hb
    rw [List.nodup_cons] at hn
    obtain ⟨e, he⟩ := hl w (by simp)
    have hw0 : w ≠ 0 := fun h => h0 (by simp [h])
    refine To.one (fun s h => runEv (t := w) (e := e) (k := .wait1) h hc hb he) ?_
    refine To.one (fun s h => exTaskRun h rfl rfl) ?_
    refine To.one (fun s h => exRet h rfl rfl hw0) ?_
    refine (ih rest _ rfl rfl hn.2 (fun h => h0 (by simp [h])) ?_ ?_).trans (To.eq ?_)
    · intro u hu
      have huw : u ≠ w := fun h => hn.1 (h ▸ hu)
      obtain ⟨e', he'⟩ := hl u (by simp [hu])
      have : u ∉ p.joiners w := fun h => hj w (by simp) u h (by simp [hu])
      exact ⟨e', by simp only [upd, this, huw, if_false]; exact he'⟩
    · intro u hu v hv
      have huw : u ≠ w := fun h => hn.1 (h ▸ hu)
      simp only [upd, huw, if_false] at hv
      exact fun h => hj u (by simp [hu]) v hv (by simp [h])
    · have hf : l.flatMap (upd p.joiners w []) = l.flatMap p.joiners := by
        rw [List.flatMap_def, List.flatMap_def]
        congr 1
        refine List.map_congr_left fun u hu => ?_
        have huw : u ≠ w := fun h => hn.1 (h ▸ hu)
        simp [upd, huw]
      simp only [hf]
      obtain ⟨cur, batch, ready, n, lv, flag, hooks, clock, td, g, cyc, ev, wt, jn, stp, ab⟩ := p
      simp only at hc
      subst hc
      congr 1
      · simp
      · funext t
        simp only [List.flatMap_cons, List.mem_cons, List.mem_append, upd]
        by_cases h1 : t ∈ l
        · simp [h1]
        · by_cases h2 : t = w
          · subst h2
            have h3 : t ∉ jn t := fun h => hj t (by simp) t h (by simp)
            have h4 : t ∉ l.flatMap jn := by
              intro h
              obtain ⟨u, hu, hv⟩ := List.mem_flatMap.1 h
              exact hj u (by simp [hu]) t hv (by simp)
            simp only [h1, h3, h4, if_false, if_true, true_or]
          · by_cases h3 : t ∈ jn w <;> by_cases h4 : t ∈ l.flatMap jn <;>
              simp only [h1, h2, h3, h4, if_false, if_true, or_self, or_true, true_or, map_finish_idem]
      · simp
      · funext t
        by_cases h1 : t ∈ l
        · simp [h1]
        · by_cases h2 : t = w
          · simp [h2, upd]
          · simp [h1, h2, upd]

/-- `gather` of the test awaits tasks that have returned. -/
theorem join_loop {i : Nat} (ts : List Nat) : ∀ (p : BP Y D M), p.cur = some (0, .join i ts) →
    (∀ t ∈ ts, p.lv t = some (.done (some ()))) →
    To (sys b xs) p { p with cur := some (0, .drive i) } := by
  induction ts with
  | nil =>
    intro p hc _
    exact To.one (fun s h => exComp (k' := .drive i) (g := p.g) h hc rfl) To.refl
  | cons t ts ih =>
    intro p hc hl
    refine To.one (fun s h => exJoinDone (u := t) (k' := fun _ => .join i ts) (kx := .failed) h hc rfl
      (hl t (by simp))) ?_
    exact ih _ rfl (fun u hu => hl u (by simp [hu]))

theorem bjoin_loop {A i : Nat} {y : Y} (ts : List Nat) : ∀ (p : BP Y D M), p.cur = some (A, .bjoin i y ts) →
    (∀ t ∈ ts, p.lv t = some (.done (some ()))) →
    To (sys b xs) p { p with cur := some (A, .compare i y) } := by
  induction ts with
  | nil =>
    intro p hc _
    exact To.one (fun s h => exComp (k' := .compare i y) (g := p.g) h hc rfl) To.refl
  | cons t ts ih =>
    intro p hc hl
    refine To.one (fun s h => exJoinDone (u := t) (k' := fun _ => .bjoin i y ts) (kx := .failed) h hc rfl
      (hl t (by simp))) ?_
    exact ih _ rfl (fun u hu => hl u (by simp [hu]))

/-! ### Background tasks -/

/-- A background task compares. -/
theorem bg_end {A W i : Nat} {y : Y} {ts : List Nat} {rest : List Handle} (p : BP Y D M) (hc : p.cur = none)
    (hb : p.batch = .task A :: rest)
    (hA : p.lv A = some (.fin (.join W (fun _ => .bjoin i y ts) .failed)))
    (hW : p.lv W = some (.done (some ()))) (hts : ∀ t ∈ ts, p.lv t = some (.done (some ())))
    (hA0 : A ≠ 0) (hj : p.joiners A = []) :
    To (sys b xs) p
      (if (p.g.results i).all (agrees b y) then { p with batch := rest, lv := upd p.lv A none }
       else { p with batch := rest, lv := upd p.lv A none, stopping := true, aborted := true }) := by
  have hne : ∀ t, p.lv t = some (.done (some ())) → t ≠ A := by
    intro t ht e
    rw [e, hA] at ht
    cases ht
  refine To.one (fun s h => runJoin (v := ()) (t := A) (u := W) (k := fun _ => .bjoin i y ts) (kx := .failed)
    h hc hb hA hW) ?_
  refine (bjoin_loop ts _ rfl ?_).trans ?_
  · intro t ht
    simp only [upd, hne t (hts t ht), if_false]
    exact hts t ht
  obtain ⟨cur, batch, ready, n, lv, flag, hooks, clock, td, g, cyc, ev, wt, jn, stp, ab⟩ := p
  simp only at hc hj
  subst hc
  by_cases hg : (g.results i).all (agrees b y) = true
  · rw [if_pos hg]
    refine To.one (fun s h => exRet (v := ()) h rfl (prog_good hg) hA0) ?_
    simp only [hj, List.not_mem_nil, if_false, List.map_nil, List.append_nil]
    refine To.forget A (some ()) (by simp [upd]) (To.eq ?_)
    congr 1
    · funext t
      by_cases h : t = A <;> simp [upd, h]
    · funext t
      by_cases h : t = A
      · subst h; simp [upd, hj]
      · simp [upd, h]
  · rw [if_neg hg]
    refine To.one (fun s h => exRaise h rfl (prog_bad (by simpa using hg)) hA0 hj) (To.eq ?_)
    congr 1
    funext t
    by_cases h : t = A <;> simp [upd, h]

/-- A background task asks for its hooks and awaits them. -/
theorem bg_begin (h : Gh b xs xa ra) {A i : Nat} {y : Y} {rest : List Handle} (hN : 0 < b.post.length)
    (hi : i < xs.length) (p : BP Y D M) (hc : p.cur = none) (hb : p.batch = .task A :: rest)
    (hA : p.lv A = some (.ready (.background i y 0))) (hAn : A < p.n) :
    To (sys b xs) p
      { p with
        batch := rest
        hooks := p.hooks ++ (List.range' b.pre.length b.post.length).map fun j => req b xa ra (i, j)
        n := p.n + b.post.length
        ready := p.ready ++ (List.range' p.n b.post.length).map .task
        lv := fun t => if t = A then some (.pend (.join p.n (fun _ => .bjoin i y
              (List.range' (p.n + 1) (b.post.length - 1))) .failed))
          else if p.n ≤ t ∧ t < p.n + b.post.length then
            some (.ready (.wait (evNum b i b.pre.length + (t - p.n))))
          else p.lv t
        joiners := upd p.joiners p.n (p.joiners p.n ++ [A]) } := by
  refine To.one (fun s h => runReady h hc hb hA) ?_
  refine (bhooks_loop h hi b.post.length 0 _ (by omega) rfl).trans ?_
  refine (bgather_loop b.post.length 0 [] _ (by omega) rfl).trans ?_
  simp only [List.nil_append, Nat.add_zero]
  obtain ⟨K, hK⟩ : ∃ K, b.post.length = K + 1 := ⟨b.post.length - 1, by omega⟩
  have hr : List.range' p.n b.post.length = p.n :: List.range' (p.n + 1) (b.post.length - 1) := by
    rw [hK, List.range'_succ]; rfl
  refine To.one (fun s h => exJoin (u := p.n) (k1 := .wait (evNum b i b.pre.length))
    (k' := fun _ => .bjoin i y (List.range' (p.n + 1) (b.post.length - 1))) (kx := .failed) h rfl ?_ ?_) ?_
  · show prog b xs (.bjoin i y (List.range' p.n b.post.length)) _ = _
    rw [hr]; rfl
  · dsimp only
    rw [if_pos (by omega)]
    simp
  · refine To.eq ?_
    obtain ⟨cur, batch, ready, n, lv, flag, hooks, clock, td, g, cyc, ev, wt, jn, stp, ab⟩ := p
    simp only at hc
    subst hc
    congr 1
    funext t
    by_cases h1 : t = A
    · subst h1; simp [upd]
    · simp [upd, h1]

/-! ### The clock executes the hooks -/

/-- The requests in the order in which they are executed. -/
def srt (ra : Nat → Ref X Y M) (L : List (Nat × Nat)) : List (Nat × Nat) :=
  (Priority.sorted (L.map fun q => (q, (ra q.2).prio))).map Prod.fst

theorem srt_perm (L : List (Nat × Nat)) : (srt ra L).Perm L := by
  have := (Priority.sorted_perm (L.map fun q => (q, (ra q.2).prio))).map Prod.fst
  rw [List.map_map] at this
  simpa [srt, Function.comp_def] using this

theorem sorted_req (L : List (Nat × Nat)) :
    Priority.sorted (L.map (req b xa ra)) = (srt ra L).map (req b xa ra) := by
  have h := sorted_map (fun q : Nat × Nat => hook b q.1 (xa q.1) q.2 (ra q.2))
    (L.map fun q => (q, (ra q.2).prio))
  rw [List.map_map] at h
  refine Eq.trans h ?_
  unfold srt
  rw [List.map_map]
  refine List.map_congr_left fun q hq => ?_
  obtain ⟨a, _, rfl⟩ := List.mem_map.1 ((Priority.sorted_perm _).mem_iff.1 hq)
  rfl

/-- The hooks run. -/
def runItems (b : Bench X Y D M) (xa : Nat → X) (ra : Nat → Ref X Y M) (l : List (Nat × Nat)) (g : G Y D M) :
    G Y D M :=
  l.foldl (fun g q => ((hook b q.1 (xa q.1) q.2 (ra q.2)).run g).1) g

/-- The event of a hook. -/
def evOf (H : Hook (Pc Y D) (G Y D M) Unit) : Nat := H.done.getD 0

/-- The clock executes the requested hooks; the waits for them end; the tasks that await these are woken. -/
theorem round (w : Nat × Nat → Nat) (L : List (Nat × Nat)) (p : BP Y D M) (hc : p.cur = none)
    (hb : p.batch = [.clock]) (hr : p.ready = []) (hk : p.clock = .check) (hf : p.flag = false)
    (hs : p.stopping = false) (hh : p.hooks = L.map (req b xa ra)) (hq : ∀ t, busy (p.lv t) = false)
    (hn : (L.map fun q => evNum b q.1 q.2).Nodup) (he : ∀ q ∈ L, p.ev (evNum b q.1 q.2) = false)
    (hw : ∀ q ∈ L, p.waiters (evNum b q.1 q.2) = [w q])
    (hl : ∀ q ∈ L, p.lv (w q) = some (.pend (.ev (evNum b q.1 q.2) .wait1)))
    (hwn : (L.map w).Nodup) (h0 : 0 ∉ L.map w) (hj : ∀ v ∈ L.map w, ∀ u ∈ p.joiners v, u ∉ L.map w)
    (hu : ∃ v ∈ L.map w, ∃ u ∈ p.joiners v, u < p.n ∧ ∃ w', p.lv u = some (.pend w')) :
    To (sys b xs) p
      { p with
        g := runItems b xa ra (srt ra L) p.g
        hooks := []
        batch := (((srt ra L).map w).flatMap p.joiners).map .task ++ [.clock]
        lv := fun t => if t ∈ L.map w then some (.done (some ()))
          else if t ∈ (L.map w).flatMap p.joiners then (p.lv t).map Status.finish else p.lv t
        waiters := fun e => if e ∈ L.map (fun q => evNum b q.1 q.2) then [] else p.waiters e
        ev := fun e => if e ∈ L.map (fun q => evNum b q.1 q.2) then true else p.ev e
        joiners := fun t => if t ∈ L.map w then [] else p.joiners t } := by
  have hperm := srt_perm (ra := ra) L
  have hne : L ≠ [] := by
    rintro rfl
    obtain ⟨v, hv, _⟩ := hu
    cases hv
  have mw : ∀ t, t ∈ (srt ra L).map w ↔ t ∈ L.map w := fun t => (hperm.map w).mem_iff
  have mj : ∀ t, t ∈ ((srt ra L).map w).flatMap p.joiners ↔ t ∈ (L.map w).flatMap p.joiners := by
    intro t
    simp only [List.mem_flatMap, mw]
  have me : ∀ e, e ∈ ((srt ra L).map fun q => evNum b q.1 q.2) ↔ e ∈ L.map fun q => evNum b q.1 q.2 :=
    fun e => (hperm.map _).mem_iff
  obtain ⟨cur, batch, ready, n, lv, flag, hooks, clock, td, g, cyc, ev, wt, jn, stp, ab⟩ := p
  simp only at hc hb hr hk hf hh hq he hw hl hj hu hs mj
  subst hc hb hr hk hf hh hs
  refine To.one (fun s h => clockHooks (sys := sys b xs) h rfl rfl rfl hq rfl evOf ?_ ?_ ?_ ?_ rfl) ?_
  · simpa using hne
  · intro q hq
    obtain ⟨a, _, rfl⟩ := List.mem_map.1 hq
    exact ⟨rfl, fun _ => rfl, fun _ => rfl⟩
  · rw [List.map_map]; exact hn
  · intro q hq
    obtain ⟨a, ha, rfl⟩ := List.mem_map.1 hq
    exact he a ha
  have e1 : (Priority.sorted (L.map (req b xa ra))).map (fun q => (q.1, evOf q.1)) =
      (srt ra L).map fun q => (hook b q.1 (xa q.1) q.2 (ra q.2), evNum b q.1 q.2) := by
    rw [sorted_req, List.map_map]; rfl
  simp only [e1]
  rw [afterAll_eq _ _ (by
    rw [List.map_map]
    exact (hperm.map fun q => evNum b q.1 q.2).nodup_iff.2 hn)]
  have hw' : ((srt ra L).map fun q => (hook b q.1 (xa q.1) q.2 (ra q.2), evNum b q.1 q.2)).flatMap
      (fun q => wt q.2) = (srt ra L).map w := by
    rw [List.flatMap_map, List.flatMap_def, List.map_congr_left (fun q hq => hw q (hperm.mem_iff.1 hq)),
      ← List.flatMap_def]
    exact List.map_eq_flatMap.symm
  have hev : ((srt ra L).map fun q => (hook b q.1 (xa q.1) q.2 (ra q.2), evNum b q.1 q.2)).map (·.2) =
      (srt ra L).map fun q => evNum b q.1 q.2 := by
    rw [List.map_map]; rfl
  have hg : ((srt ra L).map fun q => (hook b q.1 (xa q.1) q.2 (ra q.2), evNum b q.1 q.2)).foldl
      (fun g q => (q.1.run g).1) g = runItems b xa ra (srt ra L) g := by
    rw [List.foldl_map]; rfl
  simp only [hw', hev, hg, mw, me, List.nil_append]
  refine To.one (fun s h => newBatch h rfl rfl rfl) ?_
  refine (wake_loop ((srt ra L).map w) [.clock] _ rfl rfl ((hperm.map w).nodup_iff.2 hwn)
    (by rw [mw]; exact h0) ?_ ?_).trans ?_
  · intro v hv
    rw [mw] at hv
    obtain ⟨q, hq, rfl⟩ := List.mem_map.1 hv
    exact ⟨_, by simp only [hv, if_true, hl q hq]; rfl⟩
  · intro v hv u hu'
    rw [mw] at hv ⊢
    exact hj v hv u hu'
  simp only [mw, mj]
  obtain ⟨v, hv, u, huv, hun, w', hw''⟩ := hu
  have huL := hj v hv u huv
  refine To.one (fun s h => clockBusy h rfl rfl rfl u hun ?_) ?_
  · have : u ∈ (L.map w).flatMap jn := List.mem_flatMap.2 ⟨v, hv, huv⟩
    simp only [huL, this, if_true, if_false, hw'']
    rfl
  refine To.one (fun s h => newBatch h rfl rfl rfl) (To.eq ?_)
  simp only [List.nil_append]
  congr 1
  funext t
  by_cases h1 : t ∈ L.map w
  · simp only [h1, if_true]
  · simp only [h1, if_false]

/-! ### The driver method, up to where it suspends or returns -/

/-- The method up to its next clock cycle or its end. -/
def upto : Meth Y D → D → Meth Y D × D
  | .ret y, d => (.ret y, d)
  | .step k, d => (.step k, d)
  | .read k, d => upto (k d) d
  | .write f k, d => upto k (f d)

theorem meth_upto {i : Nat} (m : Meth Y D) : ∀ (p : BP Y D M), p.cur = some (0, .meth i m) →
    To (sys b xs) p
      { p with cur := some (0, .meth i (upto m p.g.dut).1), g := { p.g with dut := (upto m p.g.dut).2 } } := by
  induction m with
  | ret y => intro p hc; exact To.eq (by simp only [upto, ← hc])
  | step k => intro p hc; exact To.eq (by simp only [upto, ← hc])
  | read k ih =>
    intro p hc
    refine To.one (fun s h => exComp (k' := .meth i (k p.g.dut)) (g := p.g) h hc rfl) ?_
    exact ih p.g.dut _ rfl
  | write f k ih =>
    intro p hc
    refine To.one (fun s h => exComp (k' := .meth i k) (g := { p.g with dut := f p.g.dut }) h hc rfl) ?_
    exact ih _ rfl

/-- The test makes call `i`, up to `gather` awaiting its first task. -/
theorem call_loop (h : Gh b xs xa ra) {i : Nat} (hN : 0 < b.pre.length) (hi : i < xs.length) (p : BP Y D M)
    (hc : p.cur = some (0, .call i)) :
    To (sys b xs) p
      { p with
        cur := none
        hooks := p.hooks ++ (List.range' 0 b.pre.length).map fun j => req b xa ra (i, j)
        n := p.n + b.pre.length
        ready := p.ready ++ (List.range' p.n b.pre.length).map .task
        lv := fun t => if t = 0 then some (.pend (.join p.n (fun _ => .join i
              (List.range' (p.n + 1) (b.pre.length - 1))) .failed))
          else if p.n ≤ t ∧ t < p.n + b.pre.length then some (.ready (.wait (evNum b i 0 + (t - p.n))))
          else p.lv t
        joiners := upd p.joiners p.n (p.joiners p.n ++ [0]) } := by
  refine To.one (fun s h' => exComp h' hc (prog_call hi h _)) ?_
  refine (hooks_loop h hi b.pre.length 0 _ (by omega) rfl).trans ?_
  refine (gather_loop b.pre.length 0 [] _ (by omega) rfl).trans ?_
  obtain ⟨K, hK⟩ : ∃ K, b.pre.length = K + 1 := ⟨b.pre.length - 1, by omega⟩
  simp only [List.nil_append]
  have hr : List.range' p.n b.pre.length = p.n :: List.range' (p.n + 1) (b.pre.length - 1) := by
    rw [hK, List.range'_succ]; rfl
  refine To.one (fun s h => exJoin (u := p.n) (k1 := .wait (evNum b i 0))
    (k' := fun _ => .join i (List.range' (p.n + 1) (b.pre.length - 1))) (kx := .failed) h rfl ?_ ?_) (To.eq rfl)
  · show prog b xs (.join i (List.range' p.n b.pre.length)) _ = _
    rw [hr]; rfl
  · dsimp only
    rw [if_pos (by omega)]
    simp

/-- With no hooks before the method, it begins at once. -/
theorem call_direct (h : Gh b xs xa ra) {i : Nat} (hN : b.pre = []) (hi : i < xs.length) (p : BP Y D M)
    (hc : p.cur = some (0, .call i)) :
    To (sys b xs) p { p with cur := some (0, .meth i (b.method (xa i))) } := by
  refine To.one (fun s h' => exComp h' hc (prog_call hi h _)) ?_
  refine (hooks_loop h hi 0 0 _ (by simp [hN]) rfl).trans ?_
  refine (gather_loop 0 0 [] _ (by simp [hN]) rfl).trans ?_
  refine To.one (fun s h => exComp (k' := .drive i) (g := p.g) h rfl rfl) ?_
  refine To.one (fun s h' => exComp h' rfl (prog_drive h hi _)) (To.eq ?_)
  simp only [List.range'_zero, List.map_nil, List.append_nil, Nat.add_zero]
  congr 1
  funext t
  rw [if_neg (by omega)]

end Toffee.BenchMix
