import Verif.Lemmas.BenchMonSpec
import Verif.Lemmas.BenchMixShared
import Verif.Lemmas.LoopSilent

/-! The run of the test bench of `Verif.Model.BenchMon`. -/

namespace Toffee.BenchMon

open Toffee.Loop Toffee.LoopSym

variable {Y D M : Type} {b : Bench Y D M}

abbrev BP (Y D M : Type) := P (Pc Y D) (G D M) Unit
abbrev Stat (Y D : Type) := Option (Status (Pc Y D) Unit)

/-- The request of a check. -/
def req (q : Y × Chk Y M) : Hook (Pc Y D) (G D M) Unit × Int := (hook q.1 q.2, q.2.prio)

theorem req_silent (l : List (Y × Chk Y M)) : ∀ q ∈ (l.map req : List (Hook (Pc Y D) (G D M) Unit × Int)), Silent q.1 := by
  intro q hq
  obtain ⟨a, _, rfl⟩ := List.mem_map.1 hq
  exact ⟨rfl, fun _ => rfl⟩

theorem try_req (l : List (Y × Chk Y M)) : ∀ g : G D M, tryAll (l.map fun q => (hook q.1 q.2 : Hook (Pc Y D) (G D M) Unit)) g =
    (l.foldlM (fun (m : M) (q : Y × Chk Y M) => if q.2.fails m q.1 then none else some (q.2.run m q.1)) g.ref).map fun m => { g with ref := m } := by
  induction l with
  | nil => intro g; rfl
  | cons q l ih =>
    intro g
    simp only [List.map_cons, tryAll, List.foldlM_cons]
    by_cases h : q.2.fails g.ref q.1 = true
    · have h' : (hook q.1 q.2 : Hook (Pc Y D) (G D M) Unit).fails g = true := h
      rw [if_pos h', if_pos h]; rfl
    · have h' : ¬ (hook q.1 q.2 : Hook (Pc Y D) (G D M) Unit).fails g = true := h
      rw [if_neg h', if_neg h, ih]; rfl

/-- The hooks that were requested do what the checks do. -/
theorem try_checks (l : List (Y × Chk Y M)) (g : G D M) :
    tryAll ((Priority.sorted (l.map req : List (Hook (Pc Y D) (G D M) Unit × Int))).map Prod.fst) g =
      (checks g.ref l).map fun m => { g with ref := m } := by
  have h1 : (l.map req : List (Hook (Pc Y D) (G D M) Unit × Int)) =
      (l.map fun a => (a, a.2.prio)).map fun q => (hook q.1.1 q.1.2, q.2) := by
    rw [List.map_map]; rfl
  rw [h1, sorted_map (fun a : Y × Chk Y M => (hook a.1 a.2 : Hook (Pc Y D) (G D M) Unit)), BenchMix.sorted_mergeSort,
    List.map_map, List.map_map]
  exact try_req _ g

/-! ### One monitor -/

theorem hooks_loop {mo : Mon Y D M} {j t : Nat} {y : Y} (hj : b.mons[j]? = some mo) (l : List (Chk Y M)) : ∀ (i : Nat) (p : BP Y D M),
    mo.hooks.drop i = l →
    To (sys b) { p with cur := some (t, .hooks j y i) }
      { p with cur := some (t, .step j), hooks := p.hooks ++ l.map fun c => req (y, c) } := by
  induction l with
  | nil =>
    intro i p hl
    have hi : mo.hooks[i]? = none := by
      rw [List.getElem?_eq_none_iff]; exact List.drop_eq_nil_iff.1 hl
    refine To.one (fun s h => exComp (g := p.g) (k' := .step j) h rfl (by simp only [sys, prog, hj, hi])) ?_
    exact To.eq (by simp)
  | cons c l ih =>
    intro i p hl
    have hi : mo.hooks[i]? = some c := by
      have : (mo.hooks.drop i)[0]? = some c := by rw [hl]; rfl
      simpa using this
    refine To.one (fun s h => exHook (H := hook y c) (pr := c.prio) (k' := .hooks j y (i + 1)) h rfl
      (by simp only [sys, prog, hj, hi])) ?_
    have := ih (i + 1) { p with hooks := p.hooks ++ [(hook y c, c.prio)] } (by rw [← List.drop_drop, hl]; rfl)
    refine this.trans (To.eq ?_)
    simp [req]

theorem step_wait {mo : Mon Y D M} {j t : Nat} (hj : b.mons[j]? = some mo) (p : BP Y D M) (hev : p.ev 0 = false) :
    To (sys b) { p with cur := some (t, .step j) }
      { p with cur := none, lv := upd p.lv t (some (.pend (.ev 0 (.mon j mo.method)))),
               waiters := upd p.waiters 0 (p.waiters 0 ++ [t]) } := by
  exact To.one (fun s h => exWait (e := 0) (k' := .mon j mo.method) h rfl (by simp only [sys, prog, hj]) hev) To.refl

/-- A monitor in one clock cycle. -/
theorem mon_slice {mo : Mon Y D M} {j t : Nat} (hj : b.mons[j]? = some mo) (k : Meth (Option Y) D) : ∀ (p : BP Y D M),
    p.ev 0 = false →
    To (sys b) { p with cur := some (t, .mon j k) }
      { p with cur := none
               lv := upd p.lv t (some (.pend (.ev 0 (.mon j (watch mo k p.g.dut).2.1))))
               waiters := upd p.waiters 0 (p.waiters 0 ++ [t])
               hooks := p.hooks ++ (watch mo k p.g.dut).2.2.map req
               g := { p.g with dut := (watch mo k p.g.dut).1 } } := by
  induction k with
  | ret o =>
    intro p hev
    cases o with
    | none =>
      refine To.one (fun s h => exComp (g := p.g) (k' := .step j) h rfl rfl) ?_
      refine (step_wait hj p hev).trans (To.eq ?_)
      simp [watch, upto]
    | some y =>
      refine To.one (fun s h => exComp (g := p.g) (k' := .hooks j y 0) h rfl rfl) ?_
      refine (hooks_loop hj mo.hooks 0 p rfl).trans ?_
      refine (step_wait hj { p with hooks := p.hooks ++ mo.hooks.map fun c => req (y, c) } hev).trans (To.eq ?_)
      simp [watch, upto, Function.comp_def]
  | read f ih =>
    intro p hev
    refine To.one (fun s h => exComp (g := p.g) (k' := .mon j (f p.g.dut)) h rfl rfl) ?_
    exact ih p.g.dut p hev
  | write f k ih =>
    intro p hev
    refine To.one (fun s h => exComp (g := { p.g with dut := f p.g.dut }) (k' := .mon j k) h rfl rfl) ?_
    exact ih { p with g := { p.g with dut := f p.g.dut } } hev
  | step k ih =>
    intro p hev
    refine To.one (fun s h => exWait (e := 0) (k' := .mon j k) h rfl rfl hev) (To.eq ?_)
    simp [watch, upto]

/-! ### All monitors -/

/-- The waiters for the clock. -/
def wt (w : List Nat) (e : Nat) : List Nat := if e = 0 then w else []

theorem upd_wt (w w' : List Nat) : upd (wt w) 0 w' = wt w' := by
  funext e; by_cases h : e = 0 <;> simp [upd, wt, h]

/-- The monitors from number `j` on wait for the clock. -/
def pendL : Nat → List (Mon Y D M × Meth (Option Y) D) → List (Stat Y D)
  | _, [] => []
  | j, q :: l => some (.pend (.ev 0 (.mon j q.2))) :: pendL (j + 1) l

/-- The monitors from number `j` on have been woken. -/
def finL : Nat → List (Mon Y D M × Meth (Option Y) D) → List (Stat Y D)
  | _, [] => []
  | j, q :: l => some (.fin (.ev 0 (.mon j q.2))) :: finL (j + 1) l

theorem pendL_length (l : List (Mon Y D M × Meth (Option Y) D)) : ∀ j, (pendL j l).length = l.length := by
  induction l with
  | nil => intro j; rfl
  | cons q l ih => intro j; simp [pendL, ih]

theorem pendL_fin (l : List (Mon Y D M × Meth (Option Y) D)) : ∀ j, (pendL j l).map (Option.map Status.finish) = finL j l := by
  induction l with
  | nil => intro j; rfl
  | cons q l ih => intro j; simp only [pendL, finL, List.map_cons, ih]; rfl

theorem pendL_append (l l' : List (Mon Y D M × Meth (Option Y) D)) : ∀ j, pendL j (l ++ l') = pendL j l ++ pendL (j + l.length) l' := by
  induction l with
  | nil => intro j; rfl
  | cons q l ih =>
    intro j
    simp only [List.cons_append, pendL, ih, List.length_cons]
    rw [show j + 1 + l.length = j + (l.length + 1) by omega]

theorem pendL_quiet (l : List (Mon Y D M × Meth (Option Y) D)) : ∀ j, ∀ x ∈ pendL j l, busy x = false := by
  induction l with
  | nil => intro j x hx; cases hx
  | cons q l ih =>
    intro j x hx
    rcases List.mem_cons.1 hx with h | h
    · rw [h]; rfl
    · exact ih _ x h

theorem cycle_fst (l : List (Mon Y D M × Meth (Option Y) D)) : ∀ d, (cycle l d).2.1.map Prod.fst = l.map Prod.fst := by
  induction l with
  | nil => intro d; rfl
  | cons q l ih => intro d; simp [cycle, ih]

theorem cycle_length (l : List (Mon Y D M × Meth (Option Y) D)) (d : D) : (cycle l d).2.1.length = l.length := by
  have := congrArg List.length (cycle_fst l d)
  simpa using this

/-- The monitors run, one after the other. -/
theorem mons_loop {x : Stat Y D} {T : List (Stat Y D)} {tail : List Handle} (todo : List (Mon Y D M × Meth (Option Y) D)) :
    ∀ (A : List (Mon Y D M × Meth (Option Y) D)) (p : BP Y D M), b.mons = (A ++ todo).map Prod.fst → p.cur = none →
    p.batch = (List.range' (A.length + 1) todo.length).map .task ++ tail →
    p.lv = lvL (x :: pendL 0 A ++ (finL A.length todo ++ T)) → p.waiters = wt (List.range' 1 A.length) → p.ev 0 = false →
    To (sys b) p
      { p with batch := tail
               lv := lvL (x :: pendL 0 (A ++ (cycle todo p.g.dut).2.1) ++ T)
               waiters := wt (List.range' 1 (A.length + todo.length))
               hooks := p.hooks ++ (cycle todo p.g.dut).2.2.map req
               g := { p.g with dut := (cycle todo p.g.dut).1 } } := by
  induction todo with
  | nil =>
    intro A p hm hc hb hl hw hev
    refine To.eq ?_
    obtain ⟨⟩ := p
    simp only at hc hb hl hw
    subst hc hb hl hw
    simp [cycle, finL]
  | cons q todo ih =>
    intro A p hm hc hb hl hw hev
    have hj : b.mons[A.length]? = some q.1 := by rw [hm]; simp
    have hlen : A.length + 1 = (x :: pendL 0 A).length := by simp [pendL_length]
    refine To.one (fun s h => runEv (t := A.length + 1) (e := 0) (k := .mon A.length q.2) h hc (by rw [hb]; rfl) ?_) ?_
    · rw [hl]; exact lvL_at _ _ _ hlen
    refine (mon_slice hj q.2
      { p with
        batch := (List.range' (A.length + 1 + 1) todo.length).map .task ++ tail
        lv := upd p.lv (A.length + 1) (some .running) } hev).trans ?_
    have hA : (A ++ [(q.1, (watch q.1 q.2 p.g.dut).2.1)]).length = A.length + 1 := by simp
    refine (ih (A ++ [(q.1, (watch q.1 q.2 p.g.dut).2.1)]) _ (by rw [hm]; simp) (by rfl) (by rw [hA]) ?_ ?_
      (by exact hev)).trans (To.eq ?_)
    · show upd (upd p.lv (A.length + 1) (some .running)) (A.length + 1) _ = _
      rw [hl]
      simp only [finL, List.cons_append, pendL_append, pendL, List.append_assoc, hA, List.nil_append, Nat.zero_add]
      have h1 := lvL_upd (x :: pendL 0 A) (finL (A.length + 1) todo ++ T) (some (.fin (.ev 0 (.mon A.length q.2)))) (some .running) hlen
      have h2 := lvL_upd (x :: pendL 0 A) (finL (A.length + 1) todo ++ T) (some .running)
        (some (.pend (.ev 0 (.mon A.length (watch q.1 q.2 p.g.dut).2.1)))) hlen
      simp only [List.cons_append] at h1 h2
      rw [h1, h2]
    · show upd p.waiters 0 (p.waiters 0 ++ [A.length + 1]) = _
      rw [hw, upd_wt, hA, List.range'_1_concat, Nat.add_comm 1 A.length]; rfl
    · simp [cycle, Nat.add_assoc, Nat.add_comm 1, hc]

end Toffee.BenchMon
