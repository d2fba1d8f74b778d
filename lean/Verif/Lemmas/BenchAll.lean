import Verif.Lemmas.BenchAllSpec
import Verif.Lemmas.BenchMixShared
import Verif.Lemmas.LoopMixed

/-! The run of the test bench of `Verif.Model.BenchAll`: hooks and monitors. -/

namespace Toffee.BenchAll

open Toffee.Loop Toffee.LoopSym

variable {X Y O D M : Type} {b : Bench X Y O D M}

abbrev BP (X Y O D M : Type) := P (Pc X Y O D) (G Y D M) Unit
abbrev Stat (X Y O D : Type) := Option (Status (Pc X Y O D) Unit)
abbrev BH (X Y O D M : Type) := Hook (Pc X Y O D) (G Y D M) Unit

/-- The request of a monitor hook. -/
def mreq (q : O × Chk O M) : BH X Y O D M × Int := (mhook q.1 q.2, q.2.prio)

/-- The hook of a request; the number is that of the driver hook. -/
def hookOf (e : Nat) : Req Y O M × Nat → BH X Y O D M
  | (.saw o c, _) => mhook o c
  | (.called r, j) => dhook e j r

/-- What the hooks that were requested do. -/
theorem try_serve (e : Nat) (l : List (Req Y O M × Nat)) : ∀ g : G Y D M,
    tryAll (l.map (hookOf e) : List (BH X Y O D M)) g =
      ((l.map Prod.fst).foldlM serve (g.ref, g.results e)).map fun s => { g with ref := s.1, results := upd g.results e s.2 } := by
  induction l with
  | nil =>
    intro g
    obtain ⟨d, m, rs⟩ := g
    have : upd rs e (rs e) = rs := by funext x; by_cases h : x = e <;> simp [upd, h]
    simp [tryAll, this]
  | cons q l ih =>
    intro g
    obtain ⟨q, j⟩ := q
    cases q with
    | saw o c =>
      simp only [List.map_cons, tryAll, List.foldlM_cons, hookOf, serve]
      by_cases h : c.fails g.ref o = true
      · have h' : (mhook o c : BH X Y O D M).fails g = true := h
        rw [if_pos h', if_pos h]; rfl
      · have h' : ¬ (mhook o c : BH X Y O D M).fails g = true := h
        rw [if_neg h', if_neg h, ih]; rfl
    | called r =>
      simp only [List.map_cons, tryAll, List.foldlM_cons, hookOf, serve]
      by_cases h : r.fails g.ref = true
      · have h' : (dhook e j r : BH X Y O D M).fails g = true := h
        rw [if_pos h', if_pos h]; rfl
      · have h' : ¬ (dhook e j r : BH X Y O D M).fails g = true := h
        rw [if_neg h', if_neg h, ih]
        have h1 : upd g.results e (g.results e ++ [(r.model g.ref).2]) e = g.results e ++ [(r.model g.ref).2] := by simp [upd]
        have h2 : ∀ z, upd (upd g.results e (g.results e ++ [(r.model g.ref).2])) e z = upd g.results e z := by
          intro z; funext x; by_cases h : x = e <;> simp [upd, h]
        simp only [dhook, h1, h2]
        rfl

/-- The hooks in the order in which they run. -/
def order (l : List (Req Y O M × Nat)) : List (Req Y O M × Nat) :=
  l.mergeSort fun a a' => decide (a.1.prio ≤ a'.1.prio)

theorem sorted_order (e : Nat) (l : List (Req Y O M × Nat)) :
    (Priority.sorted (l.map fun a => ((hookOf e a : BH X Y O D M), a.1.prio))).map Prod.fst = (order l).map (hookOf e) := by
  have h1 : (l.map fun a => ((hookOf e a : BH X Y O D M), a.1.prio)) =
      (l.map fun a => (a, a.1.prio)).map fun q => (hookOf e q.1, q.2) := by
    rw [List.map_map]; rfl
  rw [h1, sorted_map (fun a : Req Y O M × Nat => (hookOf e a : BH X Y O D M)), BenchMix.sorted_mergeSort,
    List.map_map, List.map_map]
  rfl

theorem order_fst (l : List (Req Y O M × Nat)) :
    (order l).map Prod.fst = (l.map Prod.fst).mergeSort fun a a' => decide (a.prio ≤ a'.prio) := by
  unfold order
  exact List.map_mergeSort fun _ _ _ _ => rfl

theorem try_order (e : Nat) (l : List (Req Y O M × Nat)) (g : G Y D M) (hr : g.results e = []) :
    tryAll ((order l).map (hookOf e) : List (BH X Y O D M)) g =
      (serveAll g.ref (l.map Prod.fst)).map fun s => { g with ref := s.1, results := upd g.results e s.2 } := by
  rw [try_serve, order_fst, hr]; rfl

/-- What the monitors have asked for. -/
def sawL (l : List (O × Chk O M)) : List (Req Y O M × Nat) := l.map fun q => (.saw q.1 q.2, 0)

theorem sawL_fst (l : List (O × Chk O M)) : (sawL l).map Prod.fst = (saws l : List (Req Y O M)) := by
  simp [sawL, saws, Function.comp_def]

theorem mreq_sawL (e : Nat) (l : List (O × Chk O M)) :
    (l.map mreq : List (BH X Y O D M × Int)) = (sawL l).map fun a => (hookOf e a, a.1.prio) := by
  simp only [sawL, List.map_map]; rfl

/-- What a call asks for. -/
def callL (l : List (Ref Y M)) : List (Req Y O M × Nat) := l.zipIdx.map fun q => (.called q.1, q.2)

theorem callL_fst (l : List (Ref Y M)) : (callL l).map Prod.fst = (l.map Req.called : List (Req Y O M)) := by
  unfold callL
  rw [List.map_map]
  have : (Prod.fst ∘ fun q : Ref Y M × Nat => ((Req.called q.1 : Req Y O M), q.2)) = Req.called ∘ Prod.fst := rfl
  rw [this, ← List.map_map, List.zipIdx_map_fst]

theorem hook_run (e : Nat) (l : List (Req Y O M × Nat)) :
    ∀ q ∈ (l.map fun a => ((hookOf e a : BH X Y O D M), a.1.prio)), ∀ g, (q.1.run g).2 = [] := by
  intro q hq g
  obtain ⟨⟨a, j⟩, _, rfl⟩ := List.mem_map.1 hq
  cases a <;> rfl

theorem saw_silent (e : Nat) (l : List (O × Chk O M)) :
    ∀ q ∈ ((sawL l).map fun a => ((hookOf e a : BH X Y O D M), a.1.prio)), Silent q.1 := by
  intro q hq
  obtain ⟨a, ha, rfl⟩ := List.mem_map.1 hq
  obtain ⟨q, _, rfl⟩ := List.mem_map.1 ha
  exact ⟨rfl, fun _ => rfl⟩

/-- The events of the hooks of a call, in the order in which they are set. -/
theorem dones_order (e : Nat) (hs : List (O × Chk O M)) (rs : List (Ref Y M)) :
    ∃ l : List Nat, dones ((order (sawL hs ++ callL rs)).map (hookOf e) : List (BH X Y O D M)) = l.map (e + ·) ∧
      l.Perm (List.range rs.length) := by
  have h0 : ∀ L : List (Req Y O M × Nat), dones (L.map (hookOf e) : List (BH X Y O D M)) =
      (L.filterMap fun a => match a.1 with | .saw _ _ => none | .called _ => some a.2).map (e + ·) := by
    intro L
    induction L with
    | nil => rfl
    | cons a L ih =>
      obtain ⟨a, j⟩ := a
      unfold dones at ih ⊢
      cases a with
      | saw o c =>
        rw [List.map_cons, List.filterMap_cons_none (by rfl), List.filterMap_cons_none (by rfl), ih]
      | called r =>
        rw [List.map_cons, List.filterMap_cons_some (b := e + j) (by rfl), List.filterMap_cons_some (b := j) (by rfl), ih]; rfl
  refine ⟨_, h0 _, ?_⟩
  refine ((List.mergeSort_perm _ _).filterMap _).trans ?_
  rw [List.filterMap_append]
  have h1 : (sawL hs : List (Req Y O M × Nat)).filterMap (fun a => match a.1 with | .saw _ _ => none | .called _ => some a.2) = [] := by
    unfold sawL
    induction hs with
    | nil => rfl
    | cons q hs ih => rw [List.map_cons, List.filterMap_cons_none (by rfl)]; exact ih
  have h2 : (callL rs : List (Req Y O M × Nat)).filterMap (fun a => match a.1 with | .saw _ _ => none | .called _ => some a.2) =
      List.range rs.length := by
    unfold callL
    rw [List.filterMap_map]
    have : ((fun a : Req Y O M × Nat => match a.1 with | .saw _ _ => none | .called _ => some a.2) ∘
        fun q : Ref Y M × Nat => ((Req.called q.1 : Req Y O M), q.2)) = fun q => some q.2 := rfl
    rw [this]
    have h3 : ∀ l : List (Ref Y M × Nat), l.filterMap (fun q => some q.2) = l.map Prod.snd := by
      intro l; rw [← List.filterMap_eq_map]; rfl
    rw [h3, List.zipIdx_map_snd, List.range_eq_range']
  rw [h1, h2]; exact .refl _

/-! ### One monitor -/

theorem hooks_loop {mo : Mon O D M} {j t : Nat} {y : O} (hj : b.mons[j]? = some mo) (l : List (Chk O M)) : ∀ (i : Nat) (p : BP X Y O D M),
    mo.hooks.drop i = l →
    To (sys b) { p with cur := some (t, .ask j y i) }
      { p with cur := some (t, .step j), hooks := p.hooks ++ l.map fun c => mreq (y, c) } := by
  induction l with
  | nil =>
    intro i p hl
    have hi : mo.hooks[i]? = none := by
      rw [List.getElem?_eq_none_iff]; exact List.drop_eq_nil_iff.1 hl
    refine To.one (fun s h => exComp (g := p.g) (k' := .step j) h rfl (by simp only [sys, prog, hj, hi])) ?_
    exact To.eq (by simp)
  | cons c l ih =>
    intro i p hl
    have hi : mo.hooks[i]? = some c := by
      have : (mo.hooks.drop i)[0]? = some c := by rw [hl]; rfl
      simpa using this
    refine To.one (fun s h => exHook (H := mhook y c) (pr := c.prio) (k' := .ask j y (i + 1)) h rfl
      (by simp only [sys, prog, hj, hi])) ?_
    have := ih (i + 1) { p with hooks := p.hooks ++ [(mhook y c, c.prio)] } (by rw [← List.drop_drop, hl]; rfl)
    refine this.trans (To.eq ?_)
    simp [mreq]

theorem step_wait {mo : Mon O D M} {j t : Nat} (hj : b.mons[j]? = some mo) (p : BP X Y O D M) (hev : p.ev 0 = false) :
    To (sys b) { p with cur := some (t, .step j) }
      { p with cur := none, lv := upd p.lv t (some (.pend (.ev 0 (.mon j mo.method)))),
               waiters := upd p.waiters 0 (p.waiters 0 ++ [t]) } := by
  exact To.one (fun s h => exWait (e := 0) (k' := .mon j mo.method) h rfl (by simp only [sys, prog, hj]) hev) To.refl

/-- A monitor in one clock cycle. -/
theorem mon_slice {mo : Mon O D M} {j t : Nat} (hj : b.mons[j]? = some mo) (k : Meth (Option O) D) : ∀ (p : BP X Y O D M),
    p.ev 0 = false →
    To (sys b) { p with cur := some (t, .mon j k) }
      { p with cur := none
               lv := upd p.lv t (some (.pend (.ev 0 (.mon j (watch mo k p.g.dut).2.1))))
               waiters := upd p.waiters 0 (p.waiters 0 ++ [t])
               hooks := p.hooks ++ (watch mo k p.g.dut).2.2.map mreq
               g := { p.g with dut := (watch mo k p.g.dut).1 } } := by
  induction k with
  | ret o =>
    intro p hev
    cases o with
    | none =>
      refine To.one (fun s h => exComp (g := p.g) (k' := .step j) h rfl rfl) ?_
      refine (step_wait hj p hev).trans (To.eq ?_)
      simp [watch, upto]
    | some y =>
      refine To.one (fun s h => exComp (g := p.g) (k' := .ask j y 0) h rfl rfl) ?_
      refine (hooks_loop hj mo.hooks 0 p rfl).trans ?_
      refine (step_wait hj { p with hooks := p.hooks ++ mo.hooks.map fun c => mreq (y, c) } hev).trans (To.eq ?_)
      simp [watch, upto, Function.comp_def]
  | read f ih =>
    intro p hev
    refine To.one (fun s h => exComp (g := p.g) (k' := .mon j (f p.g.dut)) h rfl rfl) ?_
    exact ih p.g.dut p hev
  | write f k ih =>
    intro p hev
    refine To.one (fun s h => exComp (g := { p.g with dut := f p.g.dut }) (k' := .mon j k) h rfl rfl) ?_
    exact ih { p with g := { p.g with dut := f p.g.dut } } hev
  | step k ih =>
    intro p hev
    refine To.one (fun s h => exWait (e := 0) (k' := .mon j k) h rfl rfl hev) (To.eq ?_)
    simp [watch, upto]

/-! ### All monitors -/

/-- The waiters for the clock. -/
def wt (w : List Nat) (e : Nat) : List Nat := if e = 0 then w else []

theorem upd_wt (w w' : List Nat) : upd (wt w) 0 w' = wt w' := by
  funext e; by_cases h : e = 0 <;> simp [upd, wt, h]

/-- The monitors from number `j` on wait for the clock. -/
def pendL : Nat → List (Mon O D M × Meth (Option O) D) → List (Stat X Y O D)
  | _, [] => []
  | j, q :: l => some (.pend (.ev 0 (.mon j q.2))) :: pendL (j + 1) l

/-- The monitors from number `j` on have been woken. -/
def finL : Nat → List (Mon O D M × Meth (Option O) D) → List (Stat X Y O D)
  | _, [] => []
  | j, q :: l => some (.fin (.ev 0 (.mon j q.2))) :: finL (j + 1) l

theorem pendL_length (l : List (Mon O D M × Meth (Option O) D)) : ∀ j, (pendL (X := X) (Y := Y) j l).length = l.length := by
  induction l with
  | nil => intro j; rfl
  | cons q l ih => intro j; simp [pendL, ih]

theorem pendL_fin (l : List (Mon O D M × Meth (Option O) D)) : ∀ j, (pendL (X := X) (Y := Y) j l).map (Option.map Status.finish) = finL j l := by
  induction l with
  | nil => intro j; rfl
  | cons q l ih => intro j; simp only [pendL, finL, List.map_cons, ih]; rfl

theorem pendL_append (l l' : List (Mon O D M × Meth (Option O) D)) : ∀ j, pendL (X := X) (Y := Y) j (l ++ l') = pendL j l ++ pendL (j + l.length) l' := by
  induction l with
  | nil => intro j; rfl
  | cons q l ih =>
    intro j
    simp only [List.cons_append, pendL, ih, List.length_cons]
    rw [show j + 1 + l.length = j + (l.length + 1) by omega]

theorem pendL_quiet (l : List (Mon O D M × Meth (Option O) D)) : ∀ j, ∀ x ∈ pendL (X := X) (Y := Y) j l, busy x = false := by
  induction l with
  | nil => intro j x hx; cases hx
  | cons q l ih =>
    intro j x hx
    rcases List.mem_cons.1 hx with h | h
    · rw [h]; rfl
    · exact ih _ x h

theorem cycle_fst (l : List (Mon O D M × Meth (Option O) D)) : ∀ d, (cycle l d).2.1.map Prod.fst = l.map Prod.fst := by
  induction l with
  | nil => intro d; rfl
  | cons q l ih => intro d; simp [cycle, ih]

theorem cycle_length (l : List (Mon O D M × Meth (Option O) D)) (d : D) : (cycle l d).2.1.length = l.length := by
  have := congrArg List.length (cycle_fst l d)
  simpa using this

/-- The monitors run, one after the other. -/
theorem mons_loop {x : Stat X Y O D} {T : List (Stat X Y O D)} {tail : List Handle} (todo : List (Mon O D M × Meth (Option O) D)) :
    ∀ (A : List (Mon O D M × Meth (Option O) D)) (p : BP X Y O D M), b.mons = (A ++ todo).map Prod.fst → p.cur = none →
    p.batch = (List.range' (A.length + 1) todo.length).map .task ++ tail →
    p.lv = lvL (x :: pendL 0 A ++ (finL A.length todo ++ T)) → p.waiters = wt (List.range' 1 A.length) → p.ev 0 = false →
    To (sys b) p
      { p with batch := tail
               lv := lvL (x :: pendL 0 (A ++ (cycle todo p.g.dut).2.1) ++ T)
               waiters := wt (List.range' 1 (A.length + todo.length))
               hooks := p.hooks ++ (cycle todo p.g.dut).2.2.map mreq
               g := { p.g with dut := (cycle todo p.g.dut).1 } } := by
  induction todo with
  | nil =>
    intro A p hm hc hb hl hw hev
    refine To.eq ?_
    obtain ⟨⟩ := p
    simp only at hc hb hl hw
    subst hc hb hl hw
    simp [cycle, finL]
  | cons q todo ih =>
    intro A p hm hc hb hl hw hev
    have hj : b.mons[A.length]? = some q.1 := by rw [hm]; simp
    have hlen : A.length + 1 = (x :: pendL 0 A).length := by simp [pendL_length]
    refine To.one (fun s h => runEv (t := A.length + 1) (e := 0) (k := .mon A.length q.2) h hc (by rw [hb]; rfl) ?_) ?_
    · rw [hl]; exact lvL_at _ _ _ hlen
    refine (mon_slice hj q.2
      { p with
        batch := (List.range' (A.length + 1 + 1) todo.length).map .task ++ tail
        lv := upd p.lv (A.length + 1) (some .running) } hev).trans ?_
    have hA : (A ++ [(q.1, (watch q.1 q.2 p.g.dut).2.1)]).length = A.length + 1 := by simp
    refine (ih (A ++ [(q.1, (watch q.1 q.2 p.g.dut).2.1)]) _ (by rw [hm]; simp) (by rfl) (by rw [hA]) ?_ ?_
      (by exact hev)).trans (To.eq ?_)
    · show upd (upd p.lv (A.length + 1) (some .running)) (A.length + 1) _ = _
      rw [hl]
      simp only [finL, List.cons_append, pendL_append, pendL, List.append_assoc, hA, List.nil_append, Nat.zero_add]
      have h1 := lvL_upd (x :: pendL 0 A) (finL (A.length + 1) todo ++ T) (some (.fin (.ev 0 (.mon A.length q.2)))) (some .running) hlen
      have h2 := lvL_upd (x :: pendL 0 A) (finL (A.length + 1) todo ++ T) (some .running)
        (some (.pend (.ev 0 (.mon A.length (watch q.1 q.2 p.g.dut).2.1)))) hlen
      simp only [List.cons_append] at h1 h2
      rw [h1, h2]
    · show upd p.waiters 0 (p.waiters 0 ++ [A.length + 1]) = _
      rw [hw, upd_wt, hA, List.range'_1_concat, Nat.add_comm 1 A.length]; rfl
    · simp [cycle, Nat.add_assoc, Nat.add_comm 1, hc]

end Toffee.BenchAll
