import Verif.Lemmas.LoopHooks

/-! Symbolic execution of the event loop (`Verif.Lemmas.LoopSym`): hooks without a done event, which may raise. -/

namespace Toffee.LoopSym

open Toffee.Loop

variable {σ G V : Type} {sys : Sys σ G V} {p : P σ G V} {s : St σ G V}

/-- A hook that only changes the shared state, and perhaps raises. -/
structure Silent (H : Hook σ G V) : Prop where
  done : H.done = none
  run : ∀ g, (H.run g).2 = []

/-- The hooks run one after the other; `none` if one of them raises. -/
def tryAll : List (Hook σ G V) → G → Option G
  | [], g => some g
  | H :: l, g => if H.fails g then none else tryAll l (H.run g).1

theorem runHook_silent {H : Hook σ G V} (hH : Silent H) (i : Nat) (pr : Int) (s : St σ G V) :
    runHook s ((i, H), pr) = { note (.exec i false) s with g := (H.run s.g).1 } := by
  simp only [runHook, hH.done, hH.run, List.foldl_nil, note, Option.isSome]

/-- All hooks run. -/
theorem try_some (l : List ((Nat × Hook σ G V) × Int)) : ∀ (s : St σ G V) (ran : List Nat) (g : G), (∀ q ∈ l, Silent q.1.2) →
    tryAll (l.map fun q => q.1.2) s.g = some g →
    raising l ran s = none ∧ ∃ log, l.foldl runHook s = { s with g := g, log := log } := by
  induction l with
  | nil => intro s ran g _ h; exact ⟨rfl, s.log, by cases h; rfl⟩
  | cons q l ih =>
    intro s ran g hq h
    obtain ⟨⟨i, H⟩, pr⟩ := q
    have hH : Silent H := hq ((i, H), pr) (by simp)
    simp only [List.map_cons, tryAll] at h
    by_cases hf : H.fails s.g = true
    · rw [if_pos hf] at h; cases h
    · rw [if_neg hf] at h
      have hr := runHook_silent hH i pr s
      obtain ⟨h1, log, h2⟩ := ih (runHook s ((i, H), pr)) (ran ++ [i]) g (fun q h => hq q (by simp [h])) (by rw [hr]; exact h)
      refine ⟨?_, log, ?_⟩
      · rw [raising, if_neg hf]; exact h1
      · rw [List.foldl_cons, h2, hr]; rfl

/-- A hook raises. -/
theorem try_none (l : List ((Nat × Hook σ G V) × Int)) : ∀ (s : St σ G V) (ran : List Nat), (∀ q ∈ l, Silent q.1.2) →
    tryAll (l.map fun q => q.1.2) s.g = none →
    ∃ r g log, raising l ran s = some (r, { s with g := g, log := log }) := by
  induction l with
  | nil => intro s ran _ h; cases h
  | cons q l ih =>
    intro s ran hq h
    obtain ⟨⟨i, H⟩, pr⟩ := q
    have hH : Silent H := hq ((i, H), pr) (by simp)
    simp only [List.map_cons, tryAll] at h
    by_cases hf : H.fails s.g = true
    · refine ⟨ran ++ [i], (H.run s.g).1, s.log ++ [.hookRaise i], ?_⟩
      rw [raising, if_pos hf]
      simp only [runFail, hH.run, List.foldl_nil, note]
    · rw [if_neg hf] at h
      have hr := runHook_silent hH i pr s
      obtain ⟨r, g, log, h1⟩ := ih (runHook s ((i, H), pr)) (ran ++ [i]) (fun q h => hq q (by simp [h])) (by rw [hr]; exact h)
      refine ⟨r, g, log, ?_⟩
      rw [raising, if_neg hf, h1, hr]; rfl

theorem sorted_hooks (h : S p s) :
    (Priority.sorted s.hooks).map (fun q => q.1.2) = (Priority.sorted p.hooks).map Prod.fst := by
  rw [← h.hooks, sorted_map (fun q : Nat × Hook σ G V => q.2), List.map_map]
  rfl

theorem mem_sorted (h : S p s) (hp : ∀ q ∈ p.hooks, Silent q.1) : ∀ q ∈ Priority.sorted s.hooks, Silent q.1.2 := by
  intro q hq
  have : (q.1.2, q.2) ∈ p.hooks := by
    rw [← h.hooks]
    exact List.mem_map.2 ⟨q, (Priority.sorted_perm _).mem_iff.1 hq, rfl⟩
  exact hp _ this

theorem runClock_quiet {s s1 : St σ G V} (hk : s.clock = .check) (hu : hasUnwait s = false) (hf : s.flag = false)
    (hr : raising (Priority.sorted s.hooks) [] s = none) (hc : callbacks sys s = (false, s1)) :
    runClock sys s = if s1.testDone then push .clock { cancelAll s1 with clock := .afterCancel } else doStep sys s1 := by
  simp only [runClock, clockTurn, hk, hu, hf, Bool.or_false, Bool.false_eq_true, if_false, hr, hc]
  by_cases h : s1.testDone = true
  · simp only [h, if_true]
  · rw [if_neg h, if_neg h]

/-- Before the clock steps, or cancels the tasks, all hooks run. -/
theorem silent_ok (h : S p s) (hk : p.clock = .check) (hq : ∀ t, busy (p.lv t) = false) (hf : p.flag = false)
    (hp : ∀ q ∈ p.hooks, Silent q.1) (hsam : sys.sample = id) {g : G}
    (hg : tryAll ((Priority.sorted p.hooks).map Prod.fst) p.g = some g) :
    ∃ s1, S { p with g := g, hooks := [] } s1 ∧ runClock sys s = runClock sys s1 := by
  have hk' : s.clock = .check := by rw [h.clock, hk]
  have hu : hasUnwait s = false := quiet h hq
  have hf' : s.flag = false := by rw [h.flag, hf]
  rw [← sorted_hooks h, ← h.g] at hg
  obtain ⟨h1, log, h2⟩ := try_some _ s [] g (mem_sorted h hp) hg
  have hS : S { p with g := g, hooks := [] } { s with g := g, log := log, hooks := [] } :=
    { h with g := rfl, hooks := rfl }
  refine ⟨_, hS, ?_⟩
  have hu1 : hasUnwait { s with g := g, log := log, hooks := [] } = false := hu
  have hany : (s.hooks.any fun h => h.1.2.done.isSome) = false := by
    rw [List.any_eq_false]
    intro q hq
    have := mem_sorted h hp q ((Priority.sorted_perm _).mem_iff.2 hq)
    simp [this.done]
  have hc1 : callbacks sys s = (false, note .sample { s with g := g, log := log, hooks := [] }) := by
    simp only [callbacks, h2, hany, hsam, id]
  have hc2 : callbacks sys { s with g := g, log := log, hooks := [] } =
      (false, note .sample { s with g := g, log := log, hooks := [] }) := by
    simp only [callbacks, Priority.sorted, List.foldl_nil, List.any_nil, hsam, id]
  exact (runClock_quiet hk' hu hf' h1 hc1).trans
    (runClock_quiet (s := { s with g := g, log := log, hooks := [] }) hk' hu1 hf' rfl hc2).symm

/-- A hook raises: the loop stops. -/
theorem silent_bad (h : S p s) (hk : p.clock = .check) (hq : ∀ t, busy (p.lv t) = false) (hf : p.flag = false)
    (hp : ∀ q ∈ p.hooks, Silent q.1) (hg : tryAll ((Priority.sorted p.hooks).map Prod.fst) p.g = none) :
    (runClock sys s).cur = s.cur ∧ (runClock sys s).batch = s.batch ∧ (runClock sys s).stopping = true ∧
      (runClock sys s).aborted = true ∧ (runClock sys s).st = s.st := by
  have hk' : s.clock = .check := by rw [h.clock, hk]
  have hu : hasUnwait s = false := quiet h hq
  have hf' : s.flag = false := by rw [h.flag, hf]
  rw [← sorted_hooks h, ← h.g] at hg
  obtain ⟨r, g, log, h1⟩ := try_none _ s [] (mem_sorted h hp) hg
  simp only [runClock, clockTurn, hk', hu, hf', Bool.or_false, Bool.false_eq_true, if_false, h1, die]
  exact ⟨trivial, trivial, trivial, trivial, trivial⟩

/-- The clock runs the hooks and steps the DUT. -/
theorem clockStepSilent (h : S p s) (hc : p.cur = none) {rest : List Handle}
    (hb : p.batch = .clock :: rest) (hk : p.clock = .check) (hq : ∀ t, busy (p.lv t) = false)
    (hf : p.flag = false) (hp : ∀ q ∈ p.hooks, Silent q.1) (htd : p.testDone = false) (hev : p.ev 0 = false)
    (hsam : sys.sample = id) {g : G} (hg : tryAll ((Priority.sorted p.hooks).map Prod.fst) p.g = some g) :
    S { p with
        batch := rest
        g := sys.dutStep g
        hooks := []
        cycles := p.cycles + 1
        lv := fun t => if t ∈ p.waiters 0 then (p.lv t).map Status.finish else p.lv t
        ready := p.ready ++ (p.waiters 0).map .task ++ [.clock]
        waiters := upd p.waiters 0 []
        flag := false
        clock := .check }
      (step sys [] s) := by
  rw [stepClock h hc hb]
  obtain ⟨s1, h1, h2⟩ := silent_ok (sys := sys) (h.drop rest) hk hq hf hp hsam hg
  rw [h2]
  exact runStep h1 hk hq hf rfl htd hev hsam

/-- The clock runs the hooks and, as the test is done, cancels the tasks. -/
theorem clockCancelSilent (h : S p s) (hc : p.cur = none) {rest : List Handle}
    (hb : p.batch = .clock :: rest) (hk : p.clock = .check) (hq : ∀ t, busy (p.lv t) = false)
    (hf : p.flag = false) (hp : ∀ q ∈ p.hooks, Silent q.1) (htd : p.testDone = true)
    (hsam : sys.sample = id) {g : G} (hg : tryAll ((Priority.sorted p.hooks).map Prod.fst) p.g = some g) :
    S { p with
        g := g
        hooks := []
        lv := fun t => if t = 0 then p.lv 0 else none
        batch := rest.filter fun h => match h with | .task t => t == 0 | _ => true
        ready := (p.ready.filter fun h => match h with | .task t => t == 0 | _ => true) ++ [.clock]
        waiters := fun e => (p.waiters e).filter (· == 0)
        joiners := fun u => (p.joiners u).filter (· == 0)
        clock := .afterCancel }
      (step sys [] s) := by
  rw [stepClock h hc hb]
  obtain ⟨s1, h1, h2⟩ := silent_ok (sys := sys) (h.drop rest) hk hq hf hp hsam hg
  rw [h2]
  exact runCancel h1 hk hq hf rfl htd hsam

/-- From any state of which `p` is known, a run without due timers gets to one with the property `Q`. -/
def ToSt (sys : Sys σ G V) (p : P σ G V) (Q : St σ G V → Prop) : Prop :=
  ∀ s, S p s → ∃ n, Q ((step sys [])^[n] s)

theorem ToSt.to {q : P σ G V} {Q : St σ G V → Prop} (h1 : To sys p q) (h2 : ToSt sys q Q) : ToSt sys p Q := by
  intro s h
  obtain ⟨n, hn⟩ := h1 s h
  obtain ⟨m, hm⟩ := h2 _ hn
  exact ⟨m + n, by rw [Function.iterate_add_apply]; exact hm⟩

theorem ToSt.one {Q : St σ G V → Prop} (h1 : ∀ s, S p s → Q (step sys [] s)) : ToSt sys p Q :=
  fun s h => ⟨1, h1 s h⟩

theorem ToSt.zero {Q : St σ G V → Prop} (h1 : ∀ s, S p s → Q s) : ToSt sys p Q :=
  fun s h => ⟨0, h1 s h⟩

/-! ### Statuses as a list -/

/-- The statuses of the tasks 0, 1, ... -/
def lvL (L : List (Option (Status σ V))) (t : Nat) : Option (Status σ V) := (L[t]?).getD none

theorem lvL_upd (A B : List (Option (Status σ V))) (x y : Option (Status σ V)) {t : Nat} (ht : t = A.length) :
    upd (lvL (A ++ x :: B)) t y = lvL (A ++ y :: B) := by
  subst ht
  funext u
  simp only [upd, lvL]
  by_cases h : u = A.length
  · subst h; simp
  · rw [if_neg h]
    by_cases h1 : u < A.length
    · rw [List.getElem?_append_left h1, List.getElem?_append_left h1]
    · rw [List.getElem?_append_right (by omega), List.getElem?_append_right (by omega)]
      obtain ⟨v, hv⟩ : ∃ v, u - A.length = v + 1 := ⟨u - A.length - 1, by omega⟩
      rw [hv]; simp

theorem lvL_snoc (A : List (Option (Status σ V))) (y : Option (Status σ V)) {t : Nat} (ht : t = A.length) :
    upd (lvL A) t y = lvL (A ++ [y]) := by
  subst ht
  funext u
  simp only [upd, lvL]
  by_cases h : u = A.length
  · subst h; simp
  · rw [if_neg h]
    by_cases h1 : u < A.length
    · rw [List.getElem?_append_left h1]
    · rw [List.getElem?_eq_none (by omega), List.getElem?_eq_none (by simp; omega)]

theorem lvL_at (A B : List (Option (Status σ V))) (x : Option (Status σ V)) {t : Nat} (ht : t = A.length) :
    lvL (A ++ x :: B) t = x := by
  subst ht; simp [lvL]

theorem lvL_busy {L : List (Option (Status σ V))} (h : ∀ x ∈ L, busy x = false) (t : Nat) : busy (lvL L t) = false := by
  unfold lvL
  cases ht : L[t]? with
  | none => rfl
  | some x => exact h x (List.mem_of_getElem? ht)

/-- All tasks but the main one are woken. -/
theorem lvL_wake (x : Option (Status σ V)) (A : List (Option (Status σ V))) :
    (fun t => if t ∈ List.range' 1 A.length then (lvL (x :: A) t).map Status.finish else lvL (x :: A) t) =
      lvL (x :: A.map (Option.map Status.finish)) := by
  funext t
  simp only [lvL]
  cases t with
  | zero => rw [if_neg (by simp)]; rfl
  | succ t =>
    by_cases h : t < A.length
    · rw [if_pos (by rw [List.mem_range'_1]; omega)]
      simp [h]
    · rw [if_neg (by rw [List.mem_range'_1]; omega)]
      simp [h]

end Toffee.LoopSym
