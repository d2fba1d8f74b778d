import Verif.Lemmas.LoopSilent

/-! Symbolic execution of the event loop (`Verif.Lemmas.LoopSym`): hooks with and without done events, which may raise, and
what the clock leaves alone when the loop is about to stop. -/

namespace Toffee.LoopSym

open Toffee.Loop

variable {σ G V : Type} {sys : Sys σ G V} {p : P σ G V} {s : St σ G V}

/-- What is known after a hook ran. -/
def aft (p : P σ G V) (H : Hook σ G V) : P σ G V :=
  match H.done with
  | none => { p with g := (H.run p.g).1 }
  | some e => after p H e

theorem aft_S (h : S p s) {H : Hook σ G V} (hr : ∀ g, (H.run g).2 = []) (he : ∀ e, H.done = some e → p.ev e = false)
    (i : Nat) (pr : Int) : S (aft p H) (runHook s ((i, H), pr)) := by
  cases hd : H.done with
  | none =>
    simp only [aft, hd, runHook, hr, List.foldl_nil, note]
    exact { h with g := by show (H.run s.g).1 = _; rw [h.g] }
  | some e =>
    have hev' : s.ev e = false := by rw [h.ev, he e hd]
    simp only [aft, hd, runHook, hr, List.foldl_nil, setEv, note, hev', Bool.false_eq_true, if_false, wake]
    exact { h with
      g := by show (H.run s.g).1 = _; rw [h.g]; rfl
      ready := by show s.ready ++ _ = _; rw [h.ready, h.waiters]; rfl
      waiters := by show upd s.waiters e [] = _; rw [h.waiters]; rfl
      ev := by show upd s.ev e true = _; rw [h.ev]; rfl
      st := by
        show ∀ t, Mt (if t ∈ p.waiters e then (p.lv t).map Status.finish else p.lv t) _
        rw [← h.waiters]; exact mt_wake h.st _ }

/-- The events that a list of hooks sets. -/
def dones (l : List (Hook σ G V)) : List Nat := l.filterMap (·.done)

/-- What is known after a list of hooks ran. -/
def aftAll (p : P σ G V) (l : List (Hook σ G V)) : P σ G V := l.foldl aft p

theorem aft_ev {H : Hook σ G V} {e : Nat} (h : H.done ≠ some e) : (aft p H).ev e = p.ev e := by
  cases hd : H.done with
  | none => simp only [aft, hd]
  | some e' =>
    have : e ≠ e' := fun x => h (by rw [hd, x])
    simp [aft, hd, after, upd, this]

theorem dones_nodup {H : Hook σ G V} {l : List (Hook σ G V)} (h : (dones (H :: l)).Nodup) :
    (dones l).Nodup ∧ ∀ e, H.done = some e → e ∉ dones l := by
  unfold dones at h ⊢
  cases hd : H.done with
  | none => rw [List.filterMap_cons_none hd] at h; exact ⟨h, fun e he => by cases he⟩
  | some e =>
    rw [List.filterMap_cons_some hd, List.nodup_cons] at h
    exact ⟨h.2, fun e' he => by cases he; exact h.1⟩

theorem mem_dones_cons {H : Hook σ G V} {l : List (Hook σ G V)} {e : Nat} (h : e ∈ dones l) : e ∈ dones (H :: l) := by
  unfold dones at h ⊢
  rw [List.mem_filterMap] at h ⊢
  obtain ⟨a, ha, hb⟩ := h
  exact ⟨a, by simp [ha], hb⟩

/-- All hooks run. -/
theorem mixed_some (l : List ((Nat × Hook σ G V) × Int)) : ∀ {p : P σ G V} {s : St σ G V} (ran : List Nat) (g : G), S p s →
    (∀ q ∈ l, ∀ g, (q.1.2.run g).2 = []) → (dones (l.map fun q => q.1.2)).Nodup →
    (∀ e ∈ dones (l.map fun q => q.1.2), p.ev e = false) → tryAll (l.map fun q => q.1.2) s.g = some g →
    raising l ran s = none ∧ S (aftAll p (l.map fun q => q.1.2)) (l.foldl runHook s) := by
  induction l with
  | nil => intro p s ran g h _ _ _ _; exact ⟨rfl, h⟩
  | cons q l ih =>
    intro p s ran g h hr hn he hg
    obtain ⟨⟨i, H⟩, pr⟩ := q
    simp only [List.map_cons, tryAll] at hg
    by_cases hf : H.fails s.g = true
    · rw [if_pos hf] at hg; cases hg
    · rw [if_neg hf] at hg
      have hH : ∀ g, (H.run g).2 = [] := hr ((i, H), pr) (by simp)
      have hn' := dones_nodup hn
      have h1 := aft_S (i := i) (pr := pr) h hH (fun e hd => he e (by
        unfold dones; rw [List.mem_filterMap]; exact ⟨H, by simp, hd⟩))
      have hgs : (runHook s ((i, H), pr)).g = (H.run s.g).1 := by
        rw [h1.g]
        cases hd : H.done with
        | none => simp only [aft, hd, h.g]
        | some e => simp only [aft, hd, after, h.g]
      obtain ⟨h2, h3⟩ := ih (ran ++ [i]) g h1 (fun q hq => hr q (by simp [hq])) hn'.1
        (fun e hee => by
          rw [aft_ev (fun x => hn'.2 e x hee)]
          exact he e (mem_dones_cons hee))
        (by rw [hgs]; exact hg)
      refine ⟨?_, h3⟩
      rw [raising, if_neg hf]; exact h2

theorem run_g {H : Hook σ G V} (hH : ∀ g, (H.run g).2 = []) (i : Nat) (pr : Int) (s : St σ G V) :
    (runHook s ((i, H), pr)).g = (H.run s.g).1 := by
  simp only [runHook, hH, List.foldl_nil, note]
  cases H.done with
  | none => rfl
  | some e => simp only [setEv]; split <;> rfl

/-- A hook raises. -/
theorem mixed_none (l : List ((Nat × Hook σ G V) × Int)) : ∀ {s : St σ G V} (ran : List Nat),
    (∀ q ∈ l, ∀ g, (q.1.2.run g).2 = []) → tryAll (l.map fun q => q.1.2) s.g = none →
    ∃ r, raising l ran s = some r := by
  induction l with
  | nil => intro s ran _ h; cases h
  | cons q l ih =>
    intro s ran hr hg
    obtain ⟨⟨i, H⟩, pr⟩ := q
    simp only [List.map_cons, tryAll] at hg
    by_cases hf : H.fails s.g = true
    · exact ⟨_, by rw [raising, if_pos hf]⟩
    · rw [if_neg hf] at hg
      obtain ⟨r, h1⟩ := ih (s := runHook s ((i, H), pr)) (ran ++ [i]) (fun q hq => hr q (by simp [hq]))
        (by rw [run_g (hr ((i, H), pr) (by simp))]; exact hg)
      exact ⟨r, by rw [raising, if_neg hf, h1]⟩

/-- `aftAll` in one piece. -/
theorem aftAll_eq (l : List (Hook σ G V)) : ∀ (p : P σ G V), (dones l).Nodup →
    aftAll p l = { p with
      g := l.foldl (fun g H => (H.run g).1) p.g
      lv := fun t => if t ∈ (dones l).flatMap p.waiters then (p.lv t).map Status.finish else p.lv t
      ready := p.ready ++ ((dones l).flatMap p.waiters).map .task
      waiters := fun e => if e ∈ dones l then [] else p.waiters e
      ev := fun e => if e ∈ dones l then true else p.ev e } := by
  induction l with
  | nil => intro p _; simp [aftAll, dones]
  | cons H l ih =>
    intro p hn
    have hn' := dones_nodup hn
    show aftAll (aft p H) l = _
    rw [ih _ hn'.1]
    cases hd : H.done with
    | none =>
      have hD : dones (H :: l) = dones l := by unfold dones; rw [List.filterMap_cons_none hd]
      rw [hD]
      simp only [aft, hd, List.foldl_cons]
    | some e =>
      have hD : dones (H :: l) = e :: dones l := by unfold dones; rw [List.filterMap_cons_some hd]
      have hel := hn'.2 e hd
      rw [hD]
      have hw : (dones l).flatMap (aft p H).waiters = (dones l).flatMap p.waiters := by
        rw [List.flatMap_def, List.flatMap_def]
        congr 1
        refine List.map_congr_left fun q hq => ?_
        have : q ≠ e := fun x => hel (x ▸ hq)
        simp only [aft, hd, after]
        simp [upd, this]
      rw [hw]
      simp only [aft, hd, after, List.foldl_cons]
      congr 1
      · simp
      · funext t
        simp only [List.flatMap_cons, List.mem_append]
        by_cases h1 : t ∈ p.waiters e <;> by_cases h2 : t ∈ (dones l).flatMap p.waiters
        · simp only [h1, h2, if_true, map_finish_idem, or_self]
        · simp only [h1, h2, if_true, if_false, or_false]
        · simp only [h1, h2, if_true, if_false, or_true]
        · simp only [h1, h2, if_false, or_self]
      · funext x
        simp only [List.mem_cons, upd]
        by_cases h1 : x = e <;> by_cases h2 : x ∈ dones l <;> simp only [h1, h2, if_true, if_false, or_true, true_or, or_self, ite_self]
      · funext x
        simp only [List.mem_cons, upd]
        by_cases h1 : x = e <;> by_cases h2 : x ∈ dones l <;> simp only [h1, h2, if_true, if_false, or_true, true_or, or_self, ite_self]

theorem try_fold (l : List (Hook σ G V)) : ∀ {g g' : G}, tryAll l g = some g' → l.foldl (fun g H => (H.run g).1) g = g' := by
  induction l with
  | nil => intro g g' h; cases h; rfl
  | cons H l ih =>
    intro g g' h
    simp only [tryAll] at h
    by_cases hf : H.fails g = true
    · rw [if_pos hf] at h; cases h
    · rw [if_neg hf] at h; exact ih h

theorem run_sorted (h : S p s) (hp : ∀ q ∈ p.hooks, ∀ g, (q.1.run g).2 = []) :
    ∀ q ∈ Priority.sorted s.hooks, ∀ g, (q.1.2.run g).2 = [] := by
  intro q hq
  have : (q.1.2, q.2) ∈ p.hooks := by
    rw [← h.hooks]
    exact List.mem_map.2 ⟨q, (Priority.sorted_perm _).mem_iff.1 hq, rfl⟩
  exact hp _ this

theorem runMixed (h : S p s) (hk : p.clock = .check) (hq : ∀ t, busy (p.lv t) = false) (hf : p.flag = false)
    (hp : ∀ q ∈ p.hooks, ∀ g, (q.1.run g).2 = []) (hsam : sys.sample = id)
    {L : List (Hook σ G V)} (hL : (Priority.sorted p.hooks).map Prod.fst = L) {g : G} (hg : tryAll L p.g = some g)
    (hn : (dones L).Nodup) (he : ∀ e ∈ dones L, p.ev e = false) (hne : dones L ≠ []) :
    S { p with
        g := g
        hooks := []
        lv := fun t => if t ∈ (dones L).flatMap p.waiters then (p.lv t).map Status.finish else p.lv t
        ready := p.ready ++ ((dones L).flatMap p.waiters).map .task ++ [.clock]
        waiters := fun e => if e ∈ dones L then [] else p.waiters e
        ev := fun e => if e ∈ dones L then true else p.ev e
        flag := false
        clock := .check }
      (runClock sys s) := by
  have hk' : s.clock = .check := by rw [h.clock, hk]
  have hu : hasUnwait s = false := quiet h hq
  have hf' : s.flag = false := by rw [h.flag, hf]
  have hL' : (Priority.sorted s.hooks).map (fun q => q.1.2) = L := by rw [sorted_hooks h, hL]
  obtain ⟨h1, h2⟩ := mixed_some (Priority.sorted s.hooks) [] g h (run_sorted h hp) (by rw [hL']; exact hn)
    (by rw [hL']; exact he) (by rw [hL', h.g, hg])
  rw [hL', aftAll_eq _ _ hn] at h2
  have hany : (s.hooks.any fun h => h.1.2.done.isSome) = true := by
    rw [List.any_eq_true]
    cases hd : dones L with
    | nil => exact absurd hd hne
    | cons e l =>
      have : e ∈ dones L := by rw [hd]; simp
      unfold dones at this
      rw [List.mem_filterMap] at this
      obtain ⟨H, hH, hHe⟩ := this
      rw [← hL'] at hH
      obtain ⟨q, hq, rfl⟩ := List.mem_map.1 hH
      exact ⟨q, (Priority.sorted_perm _).mem_iff.1 hq, by rw [hHe]; rfl⟩
  simp only [runClock, clockTurn, hk', hu, hf', Bool.or_false, Bool.false_eq_true, if_false, h1,
    callbacks, hany, if_true, note, clockYield, push, hsam, id]
  have hg' : L.foldl (fun g H => (H.run g).1) p.g = g := try_fold L hg
  exact { h2 with
    g := by rw [h2.g]; exact hg'
    hooks := rfl
    ready := by
      show ((Priority.sorted s.hooks).foldl runHook s).ready ++ _ = _
      rw [h2.ready]
    flag := rfl
    clock := rfl }

/-- The clock runs the hooks; as one of them has a done event, it does not step. -/
theorem clockMixed (h : S p s) (hc : p.cur = none) {rest : List Handle} (hb : p.batch = .clock :: rest) (hk : p.clock = .check)
    (hq : ∀ t, busy (p.lv t) = false) (hf : p.flag = false) (hp : ∀ q ∈ p.hooks, ∀ g, (q.1.run g).2 = []) (hsam : sys.sample = id)
    {L : List (Hook σ G V)} (hL : (Priority.sorted p.hooks).map Prod.fst = L) {g : G} (hg : tryAll L p.g = some g)
    (hn : (dones L).Nodup) (he : ∀ e ∈ dones L, p.ev e = false) (hne : dones L ≠ []) :
    S { p with
        batch := rest
        g := g
        hooks := []
        lv := fun t => if t ∈ (dones L).flatMap p.waiters then (p.lv t).map Status.finish else p.lv t
        ready := p.ready ++ ((dones L).flatMap p.waiters).map .task ++ [.clock]
        waiters := fun e => if e ∈ dones L then [] else p.waiters e
        ev := fun e => if e ∈ dones L then true else p.ev e
        flag := false
        clock := .check }
      (step sys [] s) := by
  rw [stepClock h hc hb]
  exact runMixed (h.drop rest) hk hq hf hp hsam hL hg hn he hne

/-! ### The last turn of the clock -/

/-- No handle is left in this iteration, and the main task has not ended. -/
structure Idle0 (s : St σ G V) : Prop where
  cur : s.cur = none
  batch : s.batch = []
  main : ∀ r, s.st 0 ≠ .done r

/-- The loop is about to stop. -/
def Stops (s : St σ G V) : Prop := s.stopping = true ∧ s.aborted = true

theorem finish_done (x : Status σ V) (h : ∀ r, x ≠ .done r) (r : Option V) : x.finish ≠ .done r := by
  cases x <;> simp_all [Status.finish]

theorem setEv_idle (e : Nat) (h : Idle0 s) : Idle0 (setEv e s) := by
  unfold setEv
  split
  · exact h
  · refine ⟨h.cur, h.batch, fun r => ?_⟩
    show (if 0 ∈ _ then _ else _) ≠ _
    split
    · exact finish_done _ h.main r
    · exact h.main r

theorem setEv_stops (e : Nat) (h : Stops s) : Stops (setEv e s) := by
  unfold setEv; split <;> exact h

theorem putQ_idle (q : Nat) (v : V) (h : Idle0 s) : Idle0 (putQ q v s) := by
  unfold putQ
  dsimp only
  split
  · exact ⟨h.cur, h.batch, h.main⟩
  · refine ⟨h.cur, h.batch, fun r => ?_⟩
    show (if 0 ∈ _ then _ else _) ≠ _
    split
    · exact finish_done _ h.main r
    · exact h.main r

theorem putQ_stops (q : Nat) (v : V) (h : Stops s) : Stops (putQ q v s) := by
  unfold putQ; dsimp only; split <;> exact h

theorem spawn_idle (k : σ) (h : Idle0 s) : Idle0 (spawn k s) := by
  refine ⟨h.cur, h.batch, fun r => ?_⟩
  show upd s.st s.n (.ready k) 0 ≠ _
  unfold upd
  split
  · simp
  · exact h.main r

theorem effs_idle (l : List (Eff σ V)) : ∀ {s : St σ G V}, Idle0 s → Idle0 (l.foldl runEff s) := by
  induction l with
  | nil => exact fun h => h
  | cons x l ih =>
    intro s h
    refine ih ?_
    cases x with
    | setEv e => exact setEv_idle e h
    | put q v => exact putQ_idle q v h
    | spawn k => exact spawn_idle k h

theorem effs_stops (l : List (Eff σ V)) : ∀ {s : St σ G V}, Stops s → Stops (l.foldl runEff s) := by
  induction l with
  | nil => exact fun h => h
  | cons x l ih =>
    intro s h
    refine ih ?_
    cases x with
    | setEv e => exact setEv_stops e h
    | put q v => exact putQ_stops q v h
    | spawn k => exact h

theorem runHook_idle (q : (Nat × Hook σ G V) × Int) (h : Idle0 s) : Idle0 (runHook s q) := by
  unfold runHook
  dsimp only
  have := effs_idle (q.1.2.run s.g).2 (s := { note (.exec q.1.1 q.1.2.done.isSome) s with g := (q.1.2.run s.g).1 })
    ⟨h.cur, h.batch, h.main⟩
  split
  · exact setEv_idle _ this
  · exact this

theorem runHook_stops (q : (Nat × Hook σ G V) × Int) (h : Stops s) : Stops (runHook s q) := by
  unfold runHook
  dsimp only
  have := effs_stops (q.1.2.run s.g).2 (s := { note (.exec q.1.1 q.1.2.done.isSome) s with g := (q.1.2.run s.g).1 }) h
  split
  · exact setEv_stops _ this
  · exact this

theorem hooks_idle (l : List ((Nat × Hook σ G V) × Int)) : ∀ {s : St σ G V}, Idle0 s → Idle0 (l.foldl runHook s) := by
  induction l with
  | nil => exact fun h => h
  | cons x l ih => exact fun h => ih (runHook_idle x h)

theorem hooks_stops (l : List ((Nat × Hook σ G V) × Int)) : ∀ {s : St σ G V}, Stops s → Stops (l.foldl runHook s) := by
  induction l with
  | nil => exact fun h => h
  | cons x l ih => exact fun h => ih (runHook_stops x h)

theorem raising_idle (l : List ((Nat × Hook σ G V) × Int)) : ∀ {s : St σ G V} {ran : List Nat} {r : List Nat × St σ G V},
    Idle0 s → raising l ran s = some r → Idle0 r.2 := by
  induction l with
  | nil => intro s ran r _ h; cases h
  | cons q l ih =>
    intro s ran r hs h
    rw [raising] at h
    split at h
    · cases h
      exact effs_idle _ ⟨hs.cur, hs.batch, hs.main⟩
    · exact ih (runHook_idle q hs) h

theorem doStep_idle (h : Idle0 s) : Idle0 (doStep sys s) := by
  have := setEv_idle 0 (s := note .step { s with g := sys.dutStep s.g, cycles := s.cycles + 1 }) ⟨h.cur, h.batch, h.main⟩
  exact ⟨this.cur, this.batch, this.main⟩

theorem doStep_stops (h : Stops s) : Stops (doStep sys s) :=
  setEv_stops 0 (s := note .step { s with g := sys.dutStep s.g, cycles := s.cycles + 1 }) h

theorem cancel_idle (h : Idle0 s) : Idle0 (push .clock { cancelAll s with clock := .afterCancel }) := by
  refine ⟨h.cur, ?_, fun r => ?_⟩
  · show s.batch.filter _ = _
    rw [h.batch]; rfl
  · simpa [push, cancelAll, note] using h.main r

/-- The clock takes a turn while the loop is about to stop. -/
theorem runClock_stops (h : Idle0 s) (hs : Stops s) : Idle0 (runClock sys s) ∧ Stops (runClock sys s) := by
  have hy : ∀ s1 : St σ G V, Idle0 s1 → Stops s1 → Idle0 (clockYield s1) ∧ Stops (clockYield s1) :=
    fun s1 h1 h2 => ⟨⟨h1.cur, h1.batch, h1.main⟩, h2⟩
  cases hk : s.clock with
  | off => simp only [runClock, clockTurn, hk]; exact ⟨h, hs⟩
  | begin => simp only [runClock, clockTurn, hk]; exact hy s h hs
  | dead => simp only [runClock, clockTurn, hk]; exact ⟨h, hs⟩
  | afterCancel => simp only [runClock, clockTurn, hk]; exact ⟨doStep_idle h, doStep_stops hs⟩
  | check =>
    by_cases hb : (hasUnwait s || s.flag) = true
    · simp only [runClock, clockTurn, hk, hb, if_true]; exact hy s h hs
    · cases hr : raising (Priority.sorted s.hooks) [] s with
      | some r =>
        simp only [runClock, clockTurn, hk, hb, hr]
        have := raising_idle _ h hr
        exact ⟨⟨this.cur, this.batch, this.main⟩, rfl, rfl⟩
      | none =>
        have hci : Idle0 (callbacks sys s).2 := by
          have := hooks_idle (Priority.sorted s.hooks) h
          exact ⟨this.cur, this.batch, this.main⟩
        have hcs : Stops (callbacks sys s).2 := hooks_stops (Priority.sorted s.hooks) hs
        simp only [runClock, clockTurn, hk, hb, hr]
        by_cases h1 : (callbacks sys s).1 = true
        · simp only [h1, if_true]; exact hy _ hci hcs
        · simp only [h1]
          by_cases h2 : (callbacks sys s).2.testDone = true
          · simp only [h2, if_true]
            exact ⟨cancel_idle hci, hcs⟩
          · simp only [h2]
            exact ⟨doStep_idle hci, doStep_stops hcs⟩

/-- A hook raises. -/
theorem runClock_raises (h : S p s) (hi : Idle0 s) (hk : p.clock = .check) (hq : ∀ t, busy (p.lv t) = false) (hf : p.flag = false)
    (hp : ∀ q ∈ p.hooks, ∀ g, (q.1.run g).2 = []) (hg : tryAll ((Priority.sorted p.hooks).map Prod.fst) p.g = none) :
    Idle0 (runClock sys s) ∧ Stops (runClock sys s) := by
  have hk' : s.clock = .check := by rw [h.clock, hk]
  have hu : hasUnwait s = false := quiet h hq
  have hf' : s.flag = false := by rw [h.flag, hf]
  rw [← sorted_hooks h, ← h.g] at hg
  obtain ⟨r, h1⟩ := mixed_none _ [] (run_sorted h hp) hg
  simp only [runClock, clockTurn, hk', hu, hf', Bool.or_false, Bool.false_eq_true, if_false, h1]
  have := raising_idle _ hi h1
  exact ⟨⟨this.cur, this.batch, this.main⟩, rfl, rfl⟩

end Toffee.LoopSym
