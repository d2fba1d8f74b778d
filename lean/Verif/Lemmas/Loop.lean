import Verif.Model.Loop
import Verif.Lemmas.Priority
/-! Invariants of the event loop model. -/

namespace Toffee.Loop

variable {σ G V : Type}

theorem upd_self {α : Type} (f : Nat → α) (k : Nat) (v : α) : upd f k v k = v := by simp [upd]

theorem upd_ne {α : Type} (f : Nat → α) (k i : Nat) (v : α) (h : i ≠ k) : upd f k v i = f i := by
  simp [upd, h]

/-- Is a step or wake-up of a task in this state scheduled? -/
def qExp : Status σ V → Nat
  | .ready _ | .fin _ => 1
  | _ => 0

/-- Is a task in this state a pending waiter of event `e`? -/
def wExp (e : Nat) : Status σ V → Nat
  | .pend (.ev e' _) => if e' = e then 1 else 0
  | .pend (.final _) => if e = 0 then 1 else 0
  | _ => 0

/-- Is a task in this state a pending getter of queue `q`? -/
def gExp (q : Nat) : Status σ V → Nat
  | .pend (.get q' _) => if q' = q then 1 else 0
  | _ => 0

/-- Is a task in this state a pending joiner of task `u`? -/
def jExp (u : Nat) : Status σ V → Nat
  | .pend (.join u' _ _) => if u' = u then 1 else 0
  | _ => 0

def isRunning : Status σ V → Bool
  | .running => true
  | _ => false

def isDone : Status σ V → Bool
  | .done _ => true
  | _ => false

def finGet (q : Nat) : Status σ V → Bool
  | .fin (.get q' _) => q' == q
  | _ => false

/-- A wake-up of a `Queue.get` on queue `q`. -/
def isGet (q : Nat) (st : Nat → Status σ V) : Handle → Bool
  | .task t => finGet q (st t)
  | _ => false

/-- The bookkeeping invariant. -/
structure InvC (n : Nat) (st : Nat → Status σ V) (queue : List Handle) (ev : Nat → Bool)
    (waiters : Nat → List Nat) (q : Nat → List V) (getters joiners : Nat → List Nat)
    (clk : Pc) (c : Option Nat) : Prop where
  hq : ∀ t, queue.count (.task t) = qExp (st t)
  hw : ∀ e t, (waiters e).count t = wExp e (st t)
  hg : ∀ q t, (getters q).count t = gExp q (st t)
  hj : ∀ u t, (joiners u).count t = jExp u (st t)
  hcur : ∀ t, isRunning (st t) = true ↔ c = some t
  hpos : 0 < n
  hborn : ∀ t, n ≤ t → st t = .done none
  hev : ∀ e, ev e = true → waiters e = []
  hdone : ∀ u, isDone (st u) = true → joiners u = []
  hjfin : ∀ t u k kx, st t = .fin (.join u k kx) → isDone (st u) = true ∧ u < n
  hclk : queue.count .clock = if clk = .off ∨ clk = .dead then 0 else 1
  hgetq : ∀ x, getters x ≠ [] → (q x).length ≤ queue.countP (isGet x st)

/-- `main_coro` after the test returned: in its last wait or finished. -/
def finalOrDone : Status σ V → Bool
  | .pend (.final _) | .fin (.final _) | .done _ => true
  | _ => false

/-- `x`: handles that were taken from the queue but are still accounted for (the clock's while the
clock task runs). -/
def InvS (x : List Handle) (s : St σ G V) : Prop :=
  InvC s.n s.st (x ++ (s.batch ++ s.ready)) s.ev s.waiters s.q s.getters s.joiners s.clock
    (s.cur.map (·.1))

structure InvX (x : List Handle) (s : St σ G V) : Prop where
  core : InvS x s
  main : s.testDone = true → finalOrDone (s.st 0) = true

/-- The invariant between two micro steps. -/
abbrev Inv (s : St σ G V) : Prop := InvX [] s

section
variable {n : Nat} {st : Nat → Status σ V} {queue : List Handle} {ev : Nat → Bool}
    {waiters : Nat → List Nat} {q : Nat → List V} {getters joiners : Nat → List Nat}
    {clk : Pc} {c : Option Nat} {t : Nat}

/-- `countP (isGet x)` when one task changes between states that are no finished `get`. -/
theorem countP_isGet_upd (y : Nat) (st : Nat → Status σ V) (t : Nat) (x : Status σ V)
    (l : List Handle) (h1 : finGet y (st t) = false) (h2 : finGet y x = false) :
    l.countP (isGet y (upd st t x)) = l.countP (isGet y st) := by
  apply List.countP_congr
  intro hd _
  cases hd with
  | task u => by_cases hu : u = t <;> simp [isGet, upd, hu, h1, h2]
  | _ => simp [isGet]

/-- `countP (isGet x)` when the changing task is not in the queue. -/
theorem countP_isGet_upd' (y : Nat) (st : Nat → Status σ V) (t : Nat) (x : Status σ V)
    (l : List Handle) (h1 : l.count (.task t) = 0) :
    l.countP (isGet y (upd st t x)) = l.countP (isGet y st) := by
  apply List.countP_congr
  intro hd hm
  cases hd with
  | task u =>
    have : u ≠ t := by
      rintro rfl
      exact List.count_eq_zero.1 h1 hm
    simp [isGet, upd, this]
  | _ => simp [isGet]

theorem running_of (h : InvC n st queue ev waiters q getters joiners clk (some t)) :
    st t = .running := by
  have := (h.hcur t).2 rfl
  revert this; cases st t <;> simp [isRunning]

/-- One task changes its status and the lists follow. -/
theorem InvC.change {ev' : Nat → Bool} {q' : Nat → List V} {queue' : List Handle}
    {waiters' getters' joiners' : Nat → List Nat}
    {c' : Option Nat} {t : Nat} {x : Status σ V}
    (h : InvC n st queue ev waiters q getters joiners clk c) (ht : t < n)
    (eq : ∀ u, queue'.count (.task u) = if u = t then qExp x else queue.count (.task u))
    (eclk : queue'.count .clock = queue.count .clock)
    (ew : ∀ e u, (waiters' e).count u = if u = t then wExp e x else (waiters e).count u)
    (eg : ∀ e u, (getters' e).count u = if u = t then gExp e x else (getters e).count u)
    (ej : ∀ e u, (joiners' e).count u = if u = t then jExp e x else (joiners e).count u)
    (ec : ∀ u, c' = some u ↔ if u = t then isRunning x = true else c = some u)
    (eev : ∀ e, ev' e = true → waiters' e = [])
    (edone : ∀ u, isDone (upd st t x u) = true → joiners' u = [])
    (ejfin : ∀ u k kx, x = .fin (.join u k kx) → isDone (upd st t x u) = true ∧ u < n)
    (eold : isDone (st t) = true → isDone x = true)
    (egq : ∀ y, getters' y ≠ [] → (q' y).length ≤ queue'.countP (isGet y (upd st t x))) :
    InvC n (upd st t x) queue' ev' waiters' q' getters' joiners' clk c' where
  hq u := by rw [eq]; by_cases hu : u = t <;> simp [upd, hu, h.hq]
  hw e u := by rw [ew]; by_cases hu : u = t <;> simp [upd, hu, h.hw]
  hg e u := by rw [eg]; by_cases hu : u = t <;> simp [upd, hu, h.hg]
  hj e u := by rw [ej]; by_cases hu : u = t <;> simp [upd, hu, h.hj]
  hcur u := by rw [ec]; by_cases hu : u = t <;> simp [upd, hu, h.hcur]
  hpos := h.hpos
  hborn u hu := by
    have : u ≠ t := by omega
    simp [upd, this, h.hborn u hu]
  hev := eev
  hdone := edone
  hjfin u w k kx hu := by
    by_cases hut : u = t
    · subst hut
      rw [upd_self] at hu
      exact ejfin w k kx hu
    · rw [upd_ne _ _ _ _ hut] at hu
      have := h.hjfin u w k kx hu
      by_cases hw : w = t
      · subst hw; rw [upd_self]; exact ⟨eold this.1, ht⟩
      · rw [upd_ne _ _ _ _ hw]; exact this
  hclk := eclk.trans h.hclk
  hgetq := egq

theorem InvC.lt_of_running (h : InvC n st queue ev waiters q getters joiners clk (some t)) :
    t < n := by
  rcases Nat.lt_or_ge t n with h1 | h1
  · exact h1
  · have := h.hborn t h1; simp [running_of h] at this

theorem InvC.lt_of_not_done (h : InvC n st queue ev waiters q getters joiners clk c)
    (hd : isDone (st t) = false) : t < n := by
  rcases Nat.lt_or_ge t n with h1 | h1
  · exact h1
  · have := h.hborn t h1; simp [this, isDone] at hd

theorem count_map_task (t : Nat) (l : List Nat) :
    (l.map Handle.task).count (.task t) = l.count t := by
  induction l with
  | nil => rfl
  | cons a l ih =>
    rw [List.map_cons, List.count_cons, List.count_cons, ih]
    simp [BEq.beq]

theorem count_map_task_clock (l : List Nat) : (l.map Handle.task).count .clock = 0 := by
  induction l with
  | nil => rfl
  | cons a l ih => rw [List.map_cons, List.count_cons, ih]; simp

/-- The current task blocks on an event. -/
theorem InvC.blockEv {e : Nat} {x : Status σ V}
    (h : InvC n st queue ev waiters q getters joiners clk (some t)) (hev : ev e = false)
    (hx : (∃ k, x = .pend (.ev e k)) ∨ (e = 0 ∧ ∃ v, x = .pend (.final v))) :
    InvC n (upd st t x) queue ev (upd waiters e (waiters e ++ [t])) q getters joiners clk none := by
  have hr := running_of h
  have a1 := h.hq t
  have a2 := fun e => h.hw e t
  have a3 := fun e => h.hg e t
  have a4 := fun e => h.hj e t
  simp only [hr] at a1 a2 a3 a4
  have a5 := fun y => countP_isGet_upd' y st t x queue a1
  apply h.change h.lt_of_running
  all_goals grind [qExp, wExp, gExp, jExp, upd, isRunning, isDone, InvC]

/-- The current task blocks on an empty queue. -/
theorem InvC.blockGet {y : Nat} {k : V → σ}
    (h : InvC n st queue ev waiters q getters joiners clk (some t)) (hq : q y = []) :
    InvC n (upd st t (.pend (.get y k))) queue ev waiters q
      (upd getters y (getters y ++ [t])) joiners clk none := by
  have hr := running_of h
  have a1 := h.hq t
  have a2 := fun e => h.hw e t
  have a3 := fun e => h.hg e t
  have a4 := fun e => h.hj e t
  simp only [hr] at a1 a2 a3 a4
  have a5 := fun y x => countP_isGet_upd' y st t x queue a1
  apply h.change h.lt_of_running
  all_goals grind [qExp, wExp, gExp, jExp, upd, isRunning, isDone, InvC]

/-- The current task blocks on an unfinished task. -/
theorem InvC.blockJoin {u : Nat} {k : V → σ}
    (h : InvC n st queue ev waiters q getters joiners clk (some t)) (hu : isDone (st u) = false) :
    InvC n (upd st t (.pend (.join u k kx))) queue ev waiters q
      getters (upd joiners u (joiners u ++ [t])) clk none := by
  have hr := running_of h
  have a1 := h.hq t
  have a2 := fun e => h.hw e t
  have a3 := fun e => h.hg e t
  have a4 := fun e => h.hj e t
  simp only [hr] at a1 a2 a3 a4
  have a5 := fun y x => countP_isGet_upd' y st t x queue a1
  apply h.change h.lt_of_running
  all_goals grind [qExp, wExp, gExp, jExp, upd, isRunning, isDone, InvC]

/-- The current task starts a timer. -/
theorem InvC.blockTimer {k : σ}
    (h : InvC n st queue ev waiters q getters joiners clk (some t)) :
    InvC n (upd st t (.pend (.timer k))) queue ev waiters q getters joiners clk none := by
  have hr := running_of h
  have a1 := h.hq t
  have a2 := fun e => h.hw e t
  have a3 := fun e => h.hg e t
  have a4 := fun e => h.hj e t
  simp only [hr] at a1 a2 a3 a4
  have a5 := fun y x => countP_isGet_upd' y st t x queue a1
  apply h.change h.lt_of_running
  all_goals grind [qExp, wExp, gExp, jExp, upd, isRunning, isDone, InvC]

/-- The current task yields. -/
theorem InvC.yield {k : σ}
    (h : InvC n st queue ev waiters q getters joiners clk (some t)) :
    InvC n (upd st t (.ready k)) (queue ++ [.task t]) ev waiters q getters joiners clk none := by
  have hr := running_of h
  have a1 := h.hq t
  have a2 := fun e => h.hw e t
  have a3 := fun e => h.hg e t
  have a4 := fun e => h.hj e t
  simp only [hr] at a1 a2 a3 a4
  have a5 := fun y x => countP_isGet_upd' y st t x queue a1
  apply h.change h.lt_of_running
  all_goals grind [qExp, wExp, gExp, jExp, upd, isRunning, isDone, InvC]

/-- A task is created. -/
theorem InvC.spawn {k : σ}
    (h : InvC n st queue ev waiters q getters joiners clk c) :
    InvC (n + 1) (upd st n (.ready k)) (queue ++ [.task n]) ev waiters q getters joiners clk c := by
  have hn := h.hborn n (Nat.le_refl _)
  have a1 := h.hq n
  have a2 := fun e => h.hw e n
  have a3 := fun e => h.hg e n
  have a4 := fun e => h.hj e n
  simp only [hn] at a1 a2 a3 a4
  have a5 := fun y x => countP_isGet_upd' y st n x queue a1
  have h' : InvC (n + 1) st queue ev waiters q getters joiners clk c :=
    { h with
      hborn := fun t ht => h.hborn t (by omega)
      hpos := by omega
      hjfin := fun t u k kx hk =>
        ⟨(h.hjfin t u k kx hk).1, Nat.lt_succ_of_lt (h.hjfin t u k kx hk).2⟩ }
  constructor
  all_goals grind [qExp, wExp, gExp, jExp, upd, isRunning, isDone, InvC]

/-- The futures of a list of tasks get their result. -/
def wakeSt (st : Nat → Status σ V) (ts : List Nat) : Nat → Status σ V :=
  fun t => if t ∈ ts then (st t).finish else st t

theorem countP_isGet_wake (y : Nat) (st : Nat → Status σ V) (ts : List Nat) (l : List Handle)
    (h : ∀ t ∈ ts, l.count (.task t) = 0) :
    l.countP (isGet y (wakeSt st ts)) = l.countP (isGet y st) := by
  apply List.countP_congr
  intro hd hm
  cases hd with
  | task u =>
    have : u ∉ ts := fun hu => List.count_eq_zero.1 (h u hu) hm
    simp [isGet, wakeSt, this]
  | _ => simp [isGet]

/-- A list of blocked tasks is woken. -/
theorem InvC.wakeAll {ev' : Nat → Bool} {waiters' getters' joiners' : Nat → List Nat}
    {W : List Nat}
    (h : InvC n st queue ev waiters q getters joiners clk c)
    (hW : ∀ t ∈ W, (∃ w, st t = .pend w ∧ ∀ u k kx, w = .join u k kx → isDone (st u) = true ∧ u < n) ∧
      W.count t = 1)
    (ew : ∀ e t, (waiters' e).count t = if t ∈ W then 0 else (waiters e).count t)
    (eg : ∀ e t, (getters' e).count t = if t ∈ W then 0 else (getters e).count t)
    (ej : ∀ e t, (joiners' e).count t = if t ∈ W then 0 else (joiners e).count t)
    (eev : ∀ e, ev' e = true → waiters' e = [])
    (egq : ∀ x, getters' x ≠ [] → getters x ≠ []) :
    InvC n (wakeSt st W) (queue ++ W.map .task) ev' waiters' q getters' joiners' clk c := by
  have hin : ∀ t ∈ W, ∃ w, st t = .pend w ∧ wakeSt st W t = .fin w := by
    intro t ht
    obtain ⟨⟨w, hw, _⟩, _⟩ := hW t ht
    exact ⟨w, hw, by simp [wakeSt, ht, hw, Status.finish]⟩
  have hout : ∀ t, t ∉ W → wakeSt st W t = st t := by
    intro t ht
    simp [wakeSt, ht]
  have hdone' : ∀ u, isDone (wakeSt st W u) = isDone (st u) := by
    intro u
    by_cases hu : u ∈ W
    · obtain ⟨w, h1, h2⟩ := hin u hu
      rw [h1, h2]; rfl
    · rw [hout u hu]
  constructor
  case hq =>
    intro t
    rw [List.count_append, count_map_task, h.hq]
    by_cases ht : t ∈ W
    · obtain ⟨w, h1, h2⟩ := hin t ht
      rw [h1, h2, (hW t ht).2]; rfl
    · rw [hout t ht, List.count_eq_zero.2 ht]; rfl
  case hw =>
    intro e t
    rw [ew]
    split
    · rename_i ht
      obtain ⟨w, h1, h2⟩ := hin t ht
      rw [h2]; rfl
    · rename_i ht
      rw [hout t ht, h.hw]
  case hg =>
    intro e t
    rw [eg]
    split
    · rename_i ht
      obtain ⟨w, h1, h2⟩ := hin t ht
      rw [h2]; rfl
    · rename_i ht
      rw [hout t ht, h.hg]
  case hj =>
    intro e t
    rw [ej]
    split
    · rename_i ht
      obtain ⟨w, h1, h2⟩ := hin t ht
      rw [h2]; rfl
    · rename_i ht
      rw [hout t ht, h.hj]
  case hcur =>
    intro t
    rw [← h.hcur]
    by_cases ht : t ∈ W
    · obtain ⟨w, h1, h2⟩ := hin t ht
      rw [h1, h2]; rfl
    · rw [hout t ht]
  case hpos => exact h.hpos
  case hborn =>
    intro t ht
    have hb := h.hborn t ht
    rw [hout t, hb]
    intro hm
    obtain ⟨w, h1, _⟩ := hin t hm
    rw [hb] at h1; cases h1
  case hev => exact eev
  case hdone =>
    intro u hu
    rw [hdone'] at hu
    have h1 := h.hdone u hu
    refine List.eq_nil_iff_forall_not_mem.2 (fun t ht => ?_)
    have h2 := List.count_pos_iff.2 ht
    rw [ej, h1] at h2
    split at h2 <;> simp at h2
  case hjfin =>
    intro t u k kx hk
    rw [hdone']
    by_cases ht : t ∈ W
    · obtain ⟨⟨w, hw, hj⟩, _⟩ := hW t ht
      obtain ⟨w', h1, h2⟩ := hin t ht
      rw [hw] at h1
      cases h1
      rw [h2] at hk
      cases hk
      exact hj u k kx rfl
    · rw [hout t ht] at hk
      exact h.hjfin t u k kx hk
  case hclk =>
    rw [List.count_append, count_map_task_clock, h.hclk]; rfl
  case hgetq =>
    intro x hx
    rw [List.countP_append, countP_isGet_wake]
    · have := h.hgetq x (egq x hx)
      omega
    · intro t ht
      obtain ⟨w, h1, _⟩ := hin t ht
      rw [h.hq, h1]; rfl

/-- `Event.set` -/
theorem InvC.setEv {e : Nat} (h : InvC n st queue ev waiters q getters joiners clk c) :
    InvC n (wakeSt st (waiters e)) (queue ++ (waiters e).map .task) (upd ev e true)
      (upd waiters e []) q getters joiners clk c := by
  have hm : ∀ t, t ∈ waiters e → (∃ w, st t = .pend w ∧
      ((∃ k, w = .ev e k) ∨ (e = 0 ∧ ∃ v, w = .final v))) ∧ (waiters e).count t = 1 := by
    intro t ht
    have h1 := List.count_pos_iff.2 ht
    have h2 := h.hw e t
    revert h2
    cases hs : st t with
    | pend w => cases w <;> grind [wExp]
    | _ => grind [wExp]
  apply h.wakeAll
  · intro t ht
    obtain ⟨⟨w, h1, h2⟩, h3⟩ := hm t ht
    exact ⟨⟨w, h1, by grind⟩, h3⟩
  · intro e' t
    have h2 := h.hw e' t
    have h3 := h.hw e t
    by_cases he : e' = e
    · subst he; by_cases ht : t ∈ waiters e' <;> simp [upd_self, ht, List.count_eq_zero.2]
    · rw [upd_ne _ _ _ _ he]
      split
      · rename_i ht
        obtain ⟨⟨w, h1, h4⟩, h5⟩ := hm t ht
        rw [h1] at h2 h3
        rw [h2]
        rcases h4 with ⟨k, rfl⟩ | ⟨_, v, rfl⟩
        · simp only [wExp]; rw [if_neg]; exact fun h => he h.symm
        · simp only [wExp]; rw [if_neg]; grind
      · rfl
  · intro x t
    split
    · rename_i ht
      obtain ⟨⟨w, h1, h4⟩, h5⟩ := hm t ht
      rw [h.hg, h1]
      rcases h4 with ⟨k, rfl⟩ | ⟨_, v, rfl⟩ <;> rfl
    · rfl
  · intro x t
    split
    · rename_i ht
      obtain ⟨⟨w, h1, h4⟩, h5⟩ := hm t ht
      rw [h.hj, h1]
      rcases h4 with ⟨k, rfl⟩ | ⟨_, v, rfl⟩ <;> rfl
    · rfl
  · intro e' he'
    by_cases he : e' = e
    · subst he; exact upd_self _ _ _
    · rw [upd_ne _ _ _ _ he] at he' ⊢
      exact h.hev e' he'
  · exact fun _ hx => hx

/-- `Queue.put` without a waiting getter -/
theorem InvC.put0 {y : Nat} {v : V} (h : InvC n st queue ev waiters q getters joiners clk c)
    (hg : getters y = []) :
    InvC n st queue ev waiters (upd q y (q y ++ [v])) getters joiners clk c := by
  constructor
  all_goals grind [qExp, wExp, gExp, jExp, upd, isRunning, isDone, InvC]

/-- `Queue.put` waking the first getter -/
theorem InvC.put1 {y : Nat} {v : V} {u : Nat} {us : List Nat}
    (h : InvC n st queue ev waiters q getters joiners clk c)
    (hg : getters y = u :: us) :
    InvC n (wakeSt st [u]) (queue ++ [.task u]) ev waiters (upd q y (q y ++ [v]))
      (upd getters y us) joiners clk c := by
  have hu : ∃ k, st u = .pend (.get y k) := by
    have h2 := h.hg y u
    revert h2
    rw [hg]
    cases hs : st u with
    | pend w => cases w <;> grind [gExp]
    | _ => grind [gExp]
  obtain ⟨k, hk⟩ := hu
  have a1 := h.hq u
  have a2 := fun e => h.hw e u
  have a3 := fun e => h.hg e u
  have a4 := fun e => h.hj e u
  simp only [hk] at a1 a2 a3 a4
  have hw : wakeSt st [u] = upd st u (.fin (.get y k)) := by
    funext t
    by_cases ht : t = u <;> simp [wakeSt, upd, ht, hk, Status.finish]
  have a5 := fun y x => countP_isGet_upd' y st u x queue a1
  rw [hw]
  have a6 := h.hgetq y (by rw [hg]; simp)
  apply h.change (h.lt_of_not_done (by simp [hk, isDone]))
  case egq =>
    intro x hx
    rw [List.countP_append, a5]
    by_cases hxy : x = y
    · subst hxy
      simp only [upd_self, List.length_append, List.length_singleton, List.countP_singleton,
        isGet, finGet]
      simp; omega
    · rw [upd_ne _ _ _ _ hxy]
      rw [upd_ne _ _ _ _ hxy] at hx
      have := h.hgetq x hx
      omega
  all_goals grind [qExp, wExp, gExp, jExp, upd, isRunning, isDone, InvC]

/-- The current task takes an element from a queue. -/
theorem InvC.take {y : Nat} {v : V} {vs : List V}
    (h : InvC n st queue ev waiters q getters joiners clk c) (hq : q y = v :: vs) :
    InvC n st queue ev waiters (upd q y vs) getters joiners clk c := by
  constructor
  case hgetq =>
    intro x hx
    have := h.hgetq x hx
    by_cases hxy : x = y
    · subst hxy
      rw [upd_self]; rw [hq] at this; simp at this; omega
    · rw [upd_ne _ _ _ _ hxy]; exact this
  all_goals grind [InvC]

/-- The running task ends. -/
theorem InvC.ended {r : Option V}
    (h : InvC n st queue ev waiters q getters joiners clk (some t)) :
    InvC n (wakeSt (upd st t (.done r)) (joiners t)) (queue ++ (joiners t).map .task) ev
      waiters q getters (upd joiners t []) clk none := by
  have hr := running_of h
  have htn := h.lt_of_running
  have a1 := h.hq t
  have a2 := fun e => h.hw e t
  have a3 := fun e => h.hg e t
  have a4 := fun e => h.hj e t
  simp only [hr] at a1 a2 a3 a4
  have hm : ∀ u, u ∈ joiners t → (∃ k kx, st u = .pend (.join t k kx)) ∧ (joiners t).count u = 1 := by
    intro u hu
    have h1 := List.count_pos_iff.2 hu
    have h2 := h.hj t u
    revert h2
    cases hs : st u with
    | pend w => cases w <;> grind [jExp]
    | _ => grind [jExp]
  have htj : t ∉ joiners t := by
    intro hmt
    obtain ⟨⟨k, kx, hk⟩, _⟩ := hm t hmt
    rw [hk] at hr
    cases hr
  -- first the joiners are woken, then the task becomes done
  have h0 : InvC n (wakeSt (upd st t (.done r)) (joiners t)) (queue ++ (joiners t).map .task) ev
      waiters q getters (upd joiners t []) clk none ↔
      InvC n (upd (wakeSt st (joiners t)) t (.done r)) (queue ++ (joiners t).map .task) ev
      waiters q getters (upd joiners t []) clk none := by
    have : wakeSt (upd st t (.done r)) (joiners t) = upd (wakeSt st (joiners t)) t (.done r) := by
      funext u
      by_cases hu : u = t
      · subst hu; simp [wakeSt, htj, upd]
      · simp [wakeSt, upd, hu]
    rw [this]
  rw [h0]
  have hin : ∀ u ∈ joiners t, ∃ k kx, st u = .pend (.join t k kx) ∧
      wakeSt st (joiners t) u = .fin (.join t k kx) := by
    intro u hu
    obtain ⟨⟨k, kx, hk⟩, _⟩ := hm u hu
    exact ⟨k, kx, hk, by simp [wakeSt, hu, hk, Status.finish]⟩
  have hout : ∀ u, u ∉ joiners t → wakeSt st (joiners t) u = st u := by
    intro u hu
    simp [wakeSt, hu]
  have hdone' : ∀ u, isDone (wakeSt st (joiners t) u) = isDone (st u) := by
    intro u
    by_cases hu : u ∈ joiners t
    · obtain ⟨w, _, h1, h2⟩ := hin u hu
      rw [h1, h2]; rfl
    · rw [hout u hu]
  constructor
  case hq =>
    intro u
    rw [List.count_append, count_map_task]
    by_cases hu : u = t
    · subst hu; rw [upd_self, a1, List.count_eq_zero.2 htj]; rfl
    · rw [upd_ne _ _ _ _ hu, h.hq]
      by_cases hj : u ∈ joiners t
      · obtain ⟨k, _, h1, h2⟩ := hin u hj
        rw [h1, h2, (hm u hj).2]; rfl
      · rw [hout u hj, List.count_eq_zero.2 hj]; rfl
  case hw =>
    intro e u
    by_cases hu : u = t
    · subst hu; rw [upd_self, a2]; rfl
    · rw [upd_ne _ _ _ _ hu, h.hw]
      by_cases hj : u ∈ joiners t
      · obtain ⟨k, _, h1, h2⟩ := hin u hj
        rw [h1, h2]; rfl
      · rw [hout u hj]
  case hg =>
    intro e u
    by_cases hu : u = t
    · subst hu; rw [upd_self, a3]; rfl
    · rw [upd_ne _ _ _ _ hu, h.hg]
      by_cases hj : u ∈ joiners t
      · obtain ⟨k, _, h1, h2⟩ := hin u hj
        rw [h1, h2]; rfl
      · rw [hout u hj]
  case hj =>
    intro w u
    by_cases hu : u = t
    · subst hu
      rw [upd_self]
      by_cases hw : w = u
      · subst hw; rw [upd_self]; rfl
      · rw [upd_ne _ _ _ _ hw, a4]; rfl
    · rw [upd_ne _ _ _ _ hu]
      by_cases hj : u ∈ joiners t
      · obtain ⟨k, _, h1, h2⟩ := hin u hj
        rw [h2]
        by_cases hw : w = t
        · subst hw; rw [upd_self]; rfl
        · rw [upd_ne _ _ _ _ hw, h.hj, h1]
          simp only [jExp]
          rw [if_neg]; exact fun h => hw h.symm
      · rw [hout u hj]
        by_cases hw : w = t
        · subst hw; rw [upd_self, ← h.hj, List.count_eq_zero.2 hj]; rfl
        · rw [upd_ne _ _ _ _ hw, h.hj]
  case hcur =>
    intro u
    by_cases hu : u = t
    · subst hu; rw [upd_self]; simp [isRunning]
    · rw [upd_ne _ _ _ _ hu]
      have := h.hcur u
      by_cases hj : u ∈ joiners t
      · obtain ⟨k, _, h1, h2⟩ := hin u hj
        rw [h2]; simp [isRunning]
      · rw [hout u hj]
        constructor
        · intro hx
          have := (h.hcur u).1 hx
          simp at this; omega
        · intro hx; cases hx
  case hpos => exact h.hpos
  case hborn =>
    intro u hu
    have hb := h.hborn u hu
    rw [upd_ne _ _ _ _ (by omega), hout u, hb]
    intro hm'
    obtain ⟨w, _, h1, _⟩ := hin u hm'
    rw [hb] at h1; cases h1
  case hev => exact h.hev
  case hdone =>
    intro u hu
    by_cases hut : u = t
    · subst hut; exact upd_self _ _ _
    · rw [upd_ne _ _ _ _ hut] at hu ⊢
      rw [hdone'] at hu
      exact h.hdone u hu
  case hjfin =>
    intro u w k kx hk
    by_cases hut : u = t
    · subst hut; rw [upd_self] at hk; cases hk
    · rw [upd_ne _ _ _ _ hut] at hk
      by_cases hj : u ∈ joiners t
      · obtain ⟨k', _, h1, h2⟩ := hin u hj
        rw [h2] at hk
        cases hk
        rw [upd_self]
        exact ⟨rfl, htn⟩
      · rw [hout u hj] at hk
        have := h.hjfin u w k kx hk
        by_cases hw : w = t
        · subst hw; rw [upd_self]; exact ⟨rfl, htn⟩
        · rw [upd_ne _ _ _ _ hw, hdone']; exact this
  case hclk => rw [List.count_append, count_map_task_clock, h.hclk]; rfl
  case hgetq =>
    intro x hx
    rw [countP_isGet_upd', List.countP_append, countP_isGet_wake]
    · have := h.hgetq x hx
      omega
    · intro u hu
      obtain ⟨k, _, h1, _⟩ := hin u hu
      rw [h.hq, h1]; rfl
    · rw [List.count_append, count_map_task, a1, List.count_eq_zero.2 htj]; rfl

/-- The next handle is a task's: it is taken from the queue and the task runs (not for a finished
`get`, whose element has to be taken at the same time). -/
theorem InvC.start {rest : List Handle}
    (h : InvC n st (.task t :: rest) ev waiters q getters joiners clk none)
    (hg : ∀ y, finGet y (st t) = false) :
    InvC n (upd st t .running) rest ev waiters q getters joiners clk (some t) := by
  have a1 := h.hq t
  have a2 := fun e => h.hw e t
  have a3 := fun e => h.hg e t
  have a4 := fun e => h.hj e t
  have b1 : rest.count (.task t) = 0 := by
    rw [List.count_cons] at a1
    simp at a1
    revert a1
    cases st t <;> simp [qExp] <;> omega
  have b2 : qExp (st t) = 1 := by rw [← a1, List.count_cons, b1]; simp
  have hs : (∃ k, st t = .ready k) ∨ ∃ w, st t = .fin w := by
    revert b2
    cases st t <;> simp [qExp]
  have hnd : isDone (st t) = false := by
    rcases hs with ⟨k, hk⟩ | ⟨w, hk⟩ <;> rw [hk] <;> rfl
  apply h.change (h.lt_of_not_done hnd)
  case egq =>
    intro y hy
    rw [countP_isGet_upd' _ _ _ _ _ b1]
    have := h.hgetq y hy
    rw [List.countP_cons] at this
    simpa [isGet, hg y] using this
  case eq =>
    intro u
    by_cases hu : u = t
    · subst hu; simp [b1, qExp]
    · rw [if_neg hu, List.count_cons]; grind
  case eclk => rw [List.count_cons]; simp
  case ew =>
    intro e u
    by_cases hu : u = t
    · subst hu; rw [if_pos rfl, a2]; rcases hs with ⟨k, hk⟩ | ⟨w, hk⟩ <;> rw [hk] <;> rfl
    · rw [if_neg hu]
  case eg =>
    intro e u
    by_cases hu : u = t
    · subst hu; rw [if_pos rfl, a3]; rcases hs with ⟨k, hk⟩ | ⟨w, hk⟩ <;> rw [hk] <;> rfl
    · rw [if_neg hu]
  case ej =>
    intro e u
    by_cases hu : u = t
    · subst hu; rw [if_pos rfl, a4]; rcases hs with ⟨k, hk⟩ | ⟨w, hk⟩ <;> rw [hk] <;> rfl
    · rw [if_neg hu]
  case ec =>
    intro u
    by_cases hu : u = t
    · subst hu; simp [isRunning]
    · simp [hu]; exact fun h => hu h.symm
  case eev => exact h.hev
  case edone =>
    intro u hu
    by_cases hut : u = t
    · subst hut; rw [upd_self] at hu; cases hu
    · rw [upd_ne _ _ _ _ hut] at hu; exact h.hdone u hu
  case ejfin => intro u k kx hk; cases hk
  case eold => intro hx; rw [hnd] at hx; cases hx

/-- A finished `get` takes its element and runs. -/
theorem InvC.startGet {rest : List Handle} {y : Nat} {k : V → σ} {v : V} {vs : List V}
    (h : InvC n st (.task t :: rest) ev waiters q getters joiners clk none)
    (hs : st t = .fin (.get y k)) (hq : q y = v :: vs) :
    InvC n (upd st t .running) rest ev waiters (upd q y vs) getters joiners clk (some t) := by
  have a1 := h.hq t
  have a2 := fun e => h.hw e t
  have a3 := fun e => h.hg e t
  have a4 := fun e => h.hj e t
  simp only [hs] at a1 a2 a3 a4
  have b1 : rest.count (.task t) = 0 := by
    rw [List.count_cons] at a1
    simpa [qExp] using a1
  apply h.change (h.lt_of_not_done (by simp [hs, isDone]))
  case egq =>
    intro x hx
    rw [countP_isGet_upd' _ _ _ _ _ b1]
    have := h.hgetq x hx
    rw [List.countP_cons] at this
    simp only [isGet, hs, finGet] at this
    by_cases hxy : x = y
    · subst hxy
      rw [upd_self]; rw [hq] at this; simp at this; omega
    · rw [upd_ne _ _ _ _ hxy]
      rw [if_neg] at this
      · omega
      · simp; omega
  all_goals grind [qExp, wExp, gExp, jExp, upd, isRunning, isDone, InvC]

/-- A finished `get` finds the queue empty again and waits again. -/
theorem InvC.reGet {rest : List Handle} {y : Nat} {k : V → σ}
    (h : InvC n st (.task t :: rest) ev waiters q getters joiners clk none)
    (hs : st t = .fin (.get y k)) (hq : q y = []) :
    InvC n (upd st t (.pend (.get y k))) rest ev waiters q
      (upd getters y (getters y ++ [t])) joiners clk none := by
  have a1 := h.hq t
  have a2 := fun e => h.hw e t
  have a3 := fun e => h.hg e t
  have a4 := fun e => h.hj e t
  simp only [hs] at a1 a2 a3 a4
  have b1 : rest.count (.task t) = 0 := by
    rw [List.count_cons] at a1
    simpa [qExp] using a1
  apply h.change (h.lt_of_not_done (by simp [hs, isDone]))
  case egq =>
    intro x hx
    rw [countP_isGet_upd' _ _ _ _ _ b1]
    by_cases hxy : x = y
    · subst hxy; rw [hq]; simp
    · rw [upd_ne _ _ _ _ hxy] at hx
      have := h.hgetq x hx
      rw [List.countP_cons] at this
      simp only [isGet, hs, finGet] at this
      rw [if_neg] at this
      · omega
      · simp; omega
  all_goals grind [qExp, wExp, gExp, jExp, upd, isRunning, isDone, InvC]

/-- Handles that are no task's and not the clock's do not matter. -/
theorem InvC.requeue {queue' : List Handle}
    (h : InvC n st queue ev waiters q getters joiners clk c)
    (h1 : ∀ t, queue'.count (.task t) = queue.count (.task t))
    (h2 : queue'.count .clock = queue.count .clock)
    (h3 : ∀ y, queue.countP (isGet y st) ≤ queue'.countP (isGet y st)) :
    InvC n st queue' ev waiters q getters joiners clk c :=
  { h with
    hq := fun t => (h1 t).trans (h.hq t)
    hclk := h2.trans h.hclk
    hgetq := fun x hx => Nat.le_trans (h.hgetq x hx) (h3 x) }

/-- A timer fires. -/
theorem InvC.fire {k : σ}
    (h : InvC n st queue ev waiters q getters joiners clk c) (hs : st t = .pend (.timer k)) :
    InvC n (wakeSt st [t]) (queue ++ [.task t]) ev waiters q getters joiners clk c := by
  have a2 := fun e => h.hw e t
  have a3 := fun e => h.hg e t
  have a4 := fun e => h.hj e t
  simp only [hs] at a2 a3 a4
  apply h.wakeAll
  · intro u hu
    rw [List.mem_singleton] at hu
    subst hu
    exact ⟨⟨_, hs, by intro u k kx h; cases h⟩, by simp⟩
  · intro e u; split
    · rename_i hu; rw [List.mem_singleton] at hu; subst hu; exact a2 e
    · rfl
  · intro e u; split
    · rename_i hu; rw [List.mem_singleton] at hu; subst hu; exact a3 e
    · rfl
  · intro e u; split
    · rename_i hu; rw [List.mem_singleton] at hu; subst hu; exact a4 e
    · rfl
  · exact h.hev
  · exact fun _ hx => hx

end

/-! ### Preservation -/

theorem init_inv (g : G) (k : σ) : Inv (init g k : St σ G V) := by
  constructor
  · constructor <;> intros <;> simp_all [init, List.count_cons, qExp, wExp, gExp, jExp, isRunning, isDone]
    all_goals grind [qExp, wExp, gExp, jExp, isRunning, isDone]
  · simp [init]

theorem wake_st (ts : List Nat) (s : St σ G V) : (wake ts s).st = wakeSt s.st ts := rfl

theorem finalOrDone_finish (x : Status σ V) (h : finalOrDone x = true) :
    finalOrDone x.finish = true := by
  cases x with
  | pend w => cases w <;> simp_all [finalOrDone, Status.finish]
  | _ => simpa [Status.finish] using h

theorem finalOrDone_wake (st : Nat → Status σ V) (ts : List Nat) (t : Nat)
    (h : finalOrDone (st t) = true) : finalOrDone (wakeSt st ts t) = true := by
  unfold wakeSt
  split
  · exact finalOrDone_finish _ h
  · exact h

theorem setEv_inv {e : Nat} {s : St σ G V} {x : List Handle} (h : InvX x s) : InvX x (setEv e s) := by
  unfold setEv
  split
  · exact h
  · refine ⟨?_, fun hd => finalOrDone_wake _ _ _ (h.main hd)⟩
    have := InvC.setEv (e := e) h.core
    simp only [List.append_assoc] at this
    exact this

theorem putQ_inv {y : Nat} {v : V} {s : St σ G V} {x : List Handle} (h : InvX x s) : InvX x (putQ y v s) := by
  unfold putQ
  simp only
  split
  · rename_i hg
    exact ⟨InvC.put0 h.core hg, h.main⟩
  · rename_i u us hg
    refine ⟨?_, fun hd => finalOrDone_wake _ _ _ (h.main hd)⟩
    have := InvC.put1 (v := v) h.core hg
    simp only [List.append_assoc] at this
    exact this

theorem spawn_inv {k : σ} {s : St σ G V} {x : List Handle} (h : InvX x s) : InvX x (spawn k s) := by
  refine ⟨?_, ?_⟩
  · have := InvC.spawn (k := k) h.core
    simp only [List.append_assoc] at this
    exact this
  · intro hd
    have hp := h.core.hpos
    show finalOrDone (upd s.st s.n (.ready k) 0) = true
    rw [upd_ne _ _ _ _ (by omega)]
    exact h.main hd

theorem upd_upd {α : Type} (f : Nat → α) (k : Nat) (v w : α) :
    upd (upd f k v) k w = upd f k w := by
  funext i
  by_cases h : i = k <;> simp [upd, h]

theorem finish_st (t : Nat) (r : Option V) (s : St σ G V) :
    (finish t r s).st = wakeSt (upd s.st t (.done r)) (s.joiners t) := by
  unfold finish
  by_cases ht : t = 0 <;> simp only [ht] <;> rfl

theorem finish_testDone (t : Nat) (r : Option V) (s : St σ G V) :
    (finish t r s).testDone = s.testDone := by
  unfold finish
  by_cases ht : t = 0 <;> simp only [ht] <;> rfl

/-- `h1` is about the state in which the ending task is (again) marked as running. -/
theorem finish_inv {t : Nat} {r : Option V} {s : St σ G V}
    (h1 : InvC s.n (upd s.st t .running) (s.batch ++ s.ready) s.ev s.waiters s.q s.getters
      s.joiners s.clock (some t))
    (hm : t ≠ 0 → s.testDone = true → finalOrDone (s.st 0) = true) : Inv (finish t r s) := by
  constructor
  · unfold finish
    simp only
    by_cases ht : t = 0
    · subst ht
      simp only [if_true]
      have h2 : InvC s.n (upd s.st 0 .running) (s.batch ++ (s.ready ++ [.stop])) s.ev s.waiters
          s.q s.getters s.joiners s.clock (some 0) := by
        apply h1.requeue <;> intros <;> simp [List.count_append, List.countP_append]
        all_goals simp [List.countP_cons]
      have := InvC.ended (r := r) h2
      rw [List.append_assoc, upd_upd] at this
      exact this
    · simp only [ht, if_false]
      have := InvC.ended (r := r) h1
      rw [List.append_assoc, upd_upd] at this
      exact this
  · intro hd
    rw [finish_testDone] at hd
    rw [finish_st]
    apply finalOrDone_wake
    by_cases ht : t = 0
    · subst ht; rw [upd_self]; rfl
    · rw [upd_ne _ _ _ _ (fun h => ht h.symm)]
      exact hm ht hd

theorem Inv.of_stopping {s : St σ G V} (b c : Bool) (h : Inv s) :
    Inv { s with stopping := b, aborted := c } :=
  ⟨h.core, h.main⟩

theorem fail_eq (t : Nat) (held : Bool) (s : St σ G V) : ∃ b c, fail t held s =
    { finish t none { s with failed := upd s.failed t true } with stopping := b, aborted := c } := by
  unfold fail
  simp only
  split
  · exact ⟨_, _, rfl⟩
  · exact ⟨true, true, rfl⟩

theorem fail_inv {t : Nat} {held : Bool} {s : St σ G V}
    (h1 : InvC s.n (upd s.st t .running) (s.batch ++ s.ready) s.ev s.waiters s.q s.getters
      s.joiners s.clock (some t))
    (hm : t ≠ 0 → s.testDone = true → finalOrDone (s.st 0) = true) : Inv (fail t held s) := by
  have h2 : Inv (finish t none { s with failed := upd s.failed t true }) := finish_inv h1 hm
  unfold fail
  simp only
  split
  · exact h2
  · exact h2.of_stopping true true

theorem upd_same {α : Type} (f : Nat → α) (k : Nat) (v : α) (h : f k = v) : upd f k v = f := by
  funext i
  by_cases hi : i = k
  · subst hi; simp [upd, h]
  · simp [upd, hi]

theorem main_upd {t : Nat} {x : Status σ V} {s : St σ G V} (h : Inv s)
    (hr : isRunning (s.st t) = true) (hd : s.testDone = true) :
    finalOrDone (upd s.st t x 0) = true := by
  have := h.main hd
  rw [upd_ne]
  · exact this
  · rintro rfl
    revert this hr
    cases s.st 0 <;> simp [isRunning, finalOrDone]

theorem exec_inv {t : Nat} {k : σ} {s : St σ G V} (h : Inv s) (hc : s.cur = some (t, k))
    (c : Cmd σ G V) : Inv (exec t c s) := by
  have h1 : InvC s.n s.st (s.batch ++ s.ready) s.ev s.waiters s.q s.getters s.joiners s.clock
    (some t) := by
    have := h.core; unfold InvS at this; rw [hc] at this; exact this
  have hr : isRunning (s.st t) = true := (h1.hcur t).2 rfl
  have h1r : InvC s.n (upd s.st t .running) (s.batch ++ s.ready) s.ev s.waiters s.q s.getters
      s.joiners s.clock (some t) := by
    rw [upd_same _ _ _ (running_of h1)]; exact h1
  cases c with
  | ret v =>
    simp only [exec]
    split
    · rename_i ht
      subst ht
      split
      · apply finish_inv
        · exact h1r
        · intro h0; exact absurd rfl h0
      · rename_i hcl
        have he : s.ev 0 = false := by
          cases hev : s.ev 0
          · rfl
          · exact absurd (Or.inr hev) hcl
        refine ⟨InvC.blockEv h1 he (.inr ⟨rfl, v, rfl⟩), ?_⟩
        intro _
        show finalOrDone (upd s.st 0 (.pend (.final v)) 0) = true
        rw [upd_self]; rfl
    · exact finish_inv h1r (fun _ => h.main)
  | raise held => exact fail_inv h1r (fun _ => h.main)
  | comp g k => exact ⟨h1, h.main⟩
  | taskRun k => exact ⟨h1, h.main⟩
  | yield k' =>
    refine ⟨?_, main_upd h hr⟩
    have := InvC.yield (k := k') h1
    rw [List.append_assoc] at this
    exact this
  | sleep k' => exact ⟨InvC.blockTimer h1, main_upd h hr⟩
  | waitEv e k' =>
    simp only [exec]
    split
    · exact ⟨h1, h.main⟩
    · rename_i he
      have he : s.ev e = false := by simpa using he
      split
      · exact ⟨InvC.blockEv h1 he (.inl ⟨k', rfl⟩), main_upd h hr⟩
      · exact ⟨InvC.blockEv h1 he (.inl ⟨k', rfl⟩), main_upd h hr⟩
  | setEv e k' =>
    have h2 := setEv_inv (e := e) h
    have hc2 : (setEv e s).cur = s.cur := by unfold setEv; split <;> rfl
    have := h2.core
    unfold InvS at this
    rw [hc2, hc] at this
    exact ⟨this, h2.main⟩
  | clearEv e k' =>
    refine ⟨{ h1 with hev := ?_ }, h.main⟩
    intro e' he'
    by_cases hee : e' = e
    · subst hee
      have : upd s.ev e' false e' = true := he'
      rw [upd_self] at this; cases this
    · have : upd s.ev e false e' = true := he'
      rw [upd_ne _ _ _ _ hee] at this
      exact h1.hev e' this
  | put y v k' =>
    have h2 := putQ_inv (y := y) (v := v) h
    have hc2 : (putQ y v s).cur = s.cur := by unfold putQ; simp only; split <;> rfl
    have := h2.core
    unfold InvS at this
    rw [hc2, hc] at this
    exact ⟨this, h2.main⟩
  | get y k' =>
    simp only [exec]
    split
    · rename_i hq
      exact ⟨InvC.blockGet h1 hq, main_upd h hr⟩
    · rename_i v vs hq
      exact ⟨InvC.take h1 hq, h.main⟩
  | spawn s0 k' =>
    have h2 := spawn_inv (k := s0) h
    have := h2.core
    unfold InvS at this
    refine ⟨?_, h2.main⟩
    rw [show (spawn s0 s).cur = s.cur from rfl, hc] at this
    exact this
  | join u k' kx =>
    simp only [exec]
    split
    · exact ⟨h1, h.main⟩
    · split
      · exact ⟨h1, h.main⟩
      · exact finish_inv h1r (fun _ => h.main)
    · rename_i hn1 hn2
      refine ⟨InvC.blockJoin h1 ?_, main_upd h hr⟩
      cases hs : s.st u with
      | done r =>
        cases r with
        | none => exact absurd hs hn2
        | some v => exact absurd hs (hn1 v)
      | _ => rfl
  | addHook hk p k' => exact ⟨h1, h.main⟩
  | startClock k' =>
    simp only [exec]
    split
    · rename_i hoff
      refine ⟨?_, h.main⟩
      refine { h1 with hq := ?_, hclk := ?_, hgetq := ?_ }
      · intro u
        show (s.batch ++ (s.ready ++ [Handle.clock])).count (Handle.task u) = _
        rw [← List.append_assoc, List.count_append, h1.hq]
        simp [push]
      · show (s.batch ++ (s.ready ++ [Handle.clock])).count Handle.clock = _
        rw [← List.append_assoc, List.count_append, h1.hclk]
        simp [hoff, push]
      · intro x hx
        show _ ≤ (s.batch ++ (s.ready ++ [Handle.clock])).countP (isGet x s.st)
        rw [← List.append_assoc, List.countP_append]
        exact Nat.le_trans (h1.hgetq x hx) (Nat.le_add_right _ _)
    · exact ⟨h1, h.main⟩

theorem resume_inv {t : Nat} {rest : List Handle} {s : St σ G V} (h : Inv s) (hc : s.cur = none)
    (hb : s.batch = .task t :: rest) : Inv (resume t { s with batch := rest }) := by
  have h1 : InvC s.n s.st (.task t :: (rest ++ s.ready)) s.ev s.waiters s.q s.getters s.joiners
      s.clock none := by
    have := h.core; unfold InvS at this; rw [hc, hb] at this; exact this
  have hmain : ∀ x, finalOrDone (s.st t) = false → s.testDone = true →
      finalOrDone (upd s.st t x 0) = true := by
    intro x hx hd
    have := h.main hd
    rw [upd_ne]
    · exact this
    · rintro rfl
      rw [hx] at this; cases this
  unfold resume
  simp only
  split
  · rename_i k hk
    exact ⟨h1.start (by intro y; rw [hk]; rfl), hmain _ (by rw [hk]; rfl)⟩
  · rename_i e k hk
    refine ⟨?_, ?_⟩
    · split <;> exact h1.start (by intro y; rw [hk]; rfl)
    · split <;> exact hmain _ (by rw [hk]; rfl)
  · rename_i k hk
    exact ⟨h1.start (by intro y; rw [hk]; rfl), hmain _ (by rw [hk]; rfl)⟩
  · rename_i y k hk
    split
    · rename_i hq
      refine ⟨?_, hmain _ (by rw [hk]; rfl)⟩
      have := h1.reGet hk hq
      unfold InvS
      simp only [hc]
      exact this
    · rename_i v vs hq
      exact ⟨h1.startGet hk hq, hmain _ (by rw [hk]; rfl)⟩
  · rename_i u k kx hk
    split
    · exact ⟨h1.start (by intro y; rw [hk]; rfl), hmain _ (by rw [hk]; rfl)⟩
    · split
      · exact ⟨h1.start (by intro y; rw [hk]; rfl), hmain _ (by rw [hk]; rfl)⟩
      apply finish_inv
      · exact h1.start (by intro y; rw [hk]; rfl)
      · exact fun _ => h.main
  · rename_i v hk
    apply finish_inv
    · exact h1.start (by intro y; rw [hk]; rfl)
    · exact fun _ => h.main
  · rename_i n1 n2 n3 n4 n5 n6
    exfalso
    have := h1.hq t
    rw [List.count_cons] at this
    cases hs : s.st t with
    | ready k => exact n1 k hs
    | fin w =>
      cases w with
      | ev e k => exact n2 e k hs
      | get y k => exact n4 y k hs
      | join u k kx => exact n5 u k kx hs
      | timer k => exact n3 k hs
      | final v => exact n6 v hs
    | _ => rw [hs] at this; simp [qExp] at this

theorem foldl_inv {α : Type} (P : St σ G V → Prop) (f : St σ G V → α → St σ G V)
    (hf : ∀ s a, P s → P (f s a)) (l : List α) (s : St σ G V) (h : P s) : P (l.foldl f s) := by
  induction l generalizing s with
  | nil => exact h
  | cons a l ih => exact ih _ (hf s a h)

theorem runEff_inv {x : List Handle} {s : St σ G V} (h : InvX x s) (e : Eff σ V) :
    InvX x (runEff s e) := by
  cases e with
  | setEv e => exact setEv_inv h
  | put q v => exact putQ_inv h
  | spawn k => exact spawn_inv h

theorem runHook_inv {x : List Handle} {s : St σ G V} (h : InvX x s)
    (hk : (Nat × Hook σ G V) × Int) : InvX x (runHook s hk) := by
  unfold runHook
  have h0 : InvX x { note (.exec hk.1.1 hk.1.2.done.isSome) s with g := (hk.1.2.run s.g).1 } := ⟨h.core, h.main⟩
  have h1 := foldl_inv (InvX x) runEff (fun s e hs => runEff_inv hs e) (hk.1.2.run s.g).2 _ h0
  simp only
  split
  · exact setEv_inv h1
  · exact h1

theorem runFail_inv {x : List Handle} {s : St σ G V} (h : InvX x s)
    (hk : (Nat × Hook σ G V) × Int) : InvX x (runFail s hk) := by
  unfold runFail
  have h0 : InvX x { note (.hookRaise hk.1.1) s with g := (hk.1.2.run s.g).1 } := ⟨h.core, h.main⟩
  exact foldl_inv (InvX x) runEff (fun s e hs => runEff_inv hs e) (hk.1.2.run s.g).2 _ h0

theorem raising_spec {hs : List ((Nat × Hook σ G V) × Int)} {ran : List Nat} {s : St σ G V}
    {r : List Nat × St σ G V} (h : raising hs ran s = some r) :
    ∃ pre x post, hs = pre ++ x :: post ∧ x.1.2.fails (pre.foldl runHook s).g = true ∧
      r = (ran ++ (pre ++ [x]).map (fun h => h.1.1), runFail (pre.foldl runHook s) x) := by
  induction hs generalizing ran s with
  | nil => cases h
  | cons y hs ih =>
    rw [raising] at h
    split at h
    · rename_i hy
      cases h
      exact ⟨[], y, hs, rfl, hy, rfl⟩
    · obtain ⟨pre, x, post, h1, h2, h3⟩ := ih h
      exact ⟨y :: pre, x, post, by rw [h1]; rfl, h2, by rw [h3]; simp⟩

/-- What every hook preserves holds when a hook has raised. -/
theorem raising_rule {P : St σ G V → Prop} (h1 : ∀ s x, P s → P (runHook s x))
    (h2 : ∀ s x, P s → P (runFail s x)) {hs : List ((Nat × Hook σ G V) × Int)} {ran : List Nat}
    {s : St σ G V} {r : List Nat × St σ G V} (h : raising hs ran s = some r) (hp : P s) : P r.2 := by
  obtain ⟨pre, x, post, _, _, rfl⟩ := raising_spec h
  exact h2 _ _ (foldl_inv P runHook h1 pre s hp)

theorem raising_none {hs : List ((Nat × Hook σ G V) × Int)} {ran : List Nat} {s : St σ G V}
    (h : raising hs ran s = none) {pre post : List ((Nat × Hook σ G V) × Int)}
    {x : (Nat × Hook σ G V) × Int} (hx : hs = pre ++ x :: post) :
    x.1.2.fails (pre.foldl runHook s).g = false := by
  induction pre generalizing hs ran s with
  | nil =>
    subst hx
    rw [List.nil_append, raising] at h
    split at h
    · cases h
    · rename_i hf
      simpa using hf
  | cons y pre ih =>
    subst hx
    rw [List.cons_append, raising] at h
    split at h
    · cases h
    · exact ih h rfl

theorem callbacks_inv (sys : Sys σ G V) {x : List Handle} {s : St σ G V} (h : InvX x s) :
    InvX x (callbacks sys s).2 := by
  have h1 := foldl_inv (InvX x) runHook (fun s e hs => runHook_inv hs e)
    (Priority.sorted s.hooks) s h
  exact ⟨h1.core, h1.main⟩

/-- Handles of tasks other than main are dropped. -/
def keepMain : Handle → Bool
  | .task t => t == 0
  | _ => true

theorem count_keepMain_task (l : List Handle) (t : Nat) :
    (l.filter keepMain).count (.task t) = if t = 0 then l.count (.task t) else 0 := by
  induction l with
  | nil => simp
  | cons a l ih => cases a <;> grind [keepMain]

theorem count_keepMain_clock (l : List Handle) :
    (l.filter keepMain).count .clock = l.count .clock := by
  induction l with
  | nil => simp
  | cons a l ih => cases a <;> grind [keepMain]

theorem count_filter_zero (l : List Nat) (t : Nat) :
    (l.filter (· == 0)).count t = if t = 0 then l.count t else 0 := by
  induction l with
  | nil => simp
  | cons a l ih => grind

def cancelSt (st : Nat → Status σ V) : Nat → Status σ V :=
  fun t => if t = 0 then st t else
    match st t with
    | .done r => .done r
    | _ => .done none

theorem cancelSt_done (st : Nat → Status σ V) (t : Nat) (h : t ≠ 0) :
    isDone (cancelSt st t) = true := by
  unfold cancelSt
  rw [if_neg h]
  split <;> rfl

theorem InvC.cancel {n : Nat} {st : Nat → Status σ V} {b r : List Handle} {ev : Nat → Bool}
    {waiters : Nat → List Nat} {q : Nat → List V} {getters joiners : Nat → List Nat}
    {clk : Pc} (h : InvC n st (b ++ r) ev waiters q getters joiners clk none)
    (hm : finalOrDone (st 0) = true) :
    InvC n (cancelSt st) (b.filter keepMain ++ r.filter keepMain) ev
      (fun e => (waiters e).filter (· == 0)) q (fun e => (getters e).filter (· == 0))
      (fun e => (joiners e).filter (· == 0)) clk none := by
  have h0 : cancelSt st 0 = st 0 := rfl
  have hd : ∀ t, t ≠ 0 → ∃ r, cancelSt st t = .done r := by
    intro t ht
    have := cancelSt_done st t ht
    revert this
    cases cancelSt st t <;> simp [isDone]
  have hgen : ∀ (f : Status σ V → Nat) (l : Nat → List Nat) (e t : Nat),
      (∀ r, f (.done r) = 0) → ((l e).count t = f (st t)) →
      ((l e).filter (· == 0)).count t = f (cancelSt st t) := by
    intro f l e t hf hl
    rw [count_filter_zero]
    split
    · rename_i ht; subst ht; rw [h0]; exact hl
    · rename_i ht
      obtain ⟨r, hr⟩ := hd t ht
      rw [hr, hf]
  have g0 : ∀ q, gExp q (st 0) = 0 := by
    intro q
    revert hm
    cases st 0 with
    | pend w => cases w <;> simp [finalOrDone, gExp]
    | _ => simp [gExp]
  have j0 : ∀ q, jExp q (st 0) = 0 := by
    intro q
    revert hm
    cases st 0 with
    | pend w => cases w <;> simp [finalOrDone, jExp]
    | _ => simp [jExp]
  constructor
  case hq =>
    intro t
    rw [← List.filter_append, count_keepMain_task]
    split
    · rename_i ht; subst ht; rw [h0]; exact h.hq 0
    · rename_i ht
      obtain ⟨r, hr⟩ := hd t ht
      rw [hr]; rfl
  case hw => intro e t; exact hgen (wExp e) waiters e t (fun _ => rfl) (h.hw e t)
  case hg => intro e t; exact hgen (gExp e) getters e t (fun _ => rfl) (h.hg e t)
  case hj => intro e t; exact hgen (jExp e) joiners e t (fun _ => rfl) (h.hj e t)
  case hcur =>
    intro t
    by_cases ht : t = 0
    · subst ht; rw [h0]; exact h.hcur 0
    · obtain ⟨r, hr⟩ := hd t ht
      rw [hr]; simp [isRunning]
  case hpos => exact h.hpos
  case hborn =>
    intro t ht
    have := h.hpos
    have hb := h.hborn t ht
    unfold cancelSt
    rw [if_neg (by omega), hb]
  case hev =>
    intro e he
    show List.filter _ (waiters e) = []
    rw [h.hev e he]; rfl
  case hdone =>
    intro u hu
    refine List.eq_nil_iff_forall_not_mem.2 (fun t ht => ?_)
    rw [List.mem_filter] at ht
    obtain ⟨h1, h2⟩ := ht
    have h2 : t = 0 := by simpa using h2
    subst h2
    have := List.count_pos_iff.2 h1
    rw [h.hj, j0] at this
    omega
  case hjfin =>
    intro t u k kx hk
    by_cases ht : t = 0
    · subst ht
      rw [h0] at hk
      rw [hk] at hm
      simp [finalOrDone] at hm
    · obtain ⟨r, hr⟩ := hd t ht
      rw [hr] at hk; cases hk
  case hclk => rw [← List.filter_append, count_keepMain_clock]; exact h.hclk
  case hgetq =>
    intro x hx
    exfalso
    apply hx
    refine List.eq_nil_iff_forall_not_mem.2 (fun t ht => ?_)
    rw [List.mem_filter] at ht
    obtain ⟨h1, h2⟩ := ht
    have h2 : t = 0 := by simpa using h2
    subst h2
    have := List.count_pos_iff.2 h1
    rw [h.hg, g0] at this
    omega

theorem clockYield_inv {s : St σ G V} (h : InvX [.clock] s) (hc : ¬ (s.clock = .off ∨ s.clock = .dead)) :
    Inv (clockYield s) := by
  refine ⟨?_, h.main⟩
  have h1 := h.core
  unfold InvS at h1
  have hq : ∀ a, (s.batch ++ (s.ready ++ [Handle.clock])).count a =
      (Handle.clock :: (s.batch ++ s.ready)).count a := by
    intro a
    rw [← List.append_assoc, List.count_append, List.count_cons, List.count_cons]; simp
  have hp : ∀ p : Handle → Bool, (s.batch ++ (s.ready ++ [Handle.clock])).countP p =
      (Handle.clock :: (s.batch ++ s.ready)).countP p := by
    intro p
    rw [← List.append_assoc, List.countP_append, List.countP_cons, List.countP_cons]; simp
  refine { h1 with hq := ?_, hclk := ?_, hgetq := ?_ }
  · intro t
    exact (hq _).trans (h1.hq t)
  · refine (hq _).trans (h1.hclk.trans ?_)
    rw [if_neg hc, if_neg (by simp [clockYield, push])]
  · intro y hy
    refine Nat.le_trans (h1.hgetq y hy) (Nat.le_of_eq ?_)
    exact (hp _).symm

theorem setEv_clock (e : Nat) (s : St σ G V) : (setEv e s).clock = s.clock := by
  unfold setEv; split <;> rfl

theorem putQ_clock (y : Nat) (v : V) (s : St σ G V) : (putQ y v s).clock = s.clock := by
  unfold putQ; simp only; split <;> rfl

theorem runEff_clock (s : St σ G V) (e : Eff σ V) : (runEff s e).clock = s.clock := by
  cases e with
  | setEv e => exact setEv_clock _ _
  | put q v => exact putQ_clock _ _ _
  | spawn k => rfl

theorem foldl_eq {α β : Type} (p : St σ G V → β) (f : St σ G V → α → St σ G V)
    (hf : ∀ s a, p (f s a) = p s) (l : List α) (s : St σ G V) : p (l.foldl f s) = p s := by
  induction l generalizing s with
  | nil => rfl
  | cons a l ih => exact (ih _).trans (hf s a)

theorem runHook_clock (s : St σ G V) (h : (Nat × Hook σ G V) × Int) :
    (runHook s h).clock = s.clock := by
  unfold runHook
  have := foldl_eq St.clock runEff runEff_clock (h.1.2.run s.g).2
    { note (.exec h.1.1 h.1.2.done.isSome) s with g := (h.1.2.run s.g).1 }
  simp only
  split
  · exact (setEv_clock _ _).trans this
  · exact this

theorem runFail_clock (s : St σ G V) (h : (Nat × Hook σ G V) × Int) :
    (runFail s h).clock = s.clock :=
  foldl_eq St.clock runEff runEff_clock (h.1.2.run s.g).2
    { note (.hookRaise h.1.1) s with g := (h.1.2.run s.g).1 }

theorem callbacks_clock (sys : Sys σ G V) (s : St σ G V) :
    (callbacks sys s).2.clock = s.clock :=
  foldl_eq St.clock runHook runHook_clock (Priority.sorted s.hooks) s

theorem setEv_cur (e : Nat) (s : St σ G V) : (setEv e s).cur = s.cur := by
  unfold setEv; split <;> rfl

theorem putQ_cur (y : Nat) (v : V) (s : St σ G V) : (putQ y v s).cur = s.cur := by
  unfold putQ; simp only; split <;> rfl

theorem runEff_cur (s : St σ G V) (e : Eff σ V) : (runEff s e).cur = s.cur := by
  cases e with
  | setEv e => exact setEv_cur _ _
  | put q v => exact putQ_cur _ _ _
  | spawn k => rfl

theorem runHook_cur (s : St σ G V) (h : (Nat × Hook σ G V) × Int) :
    (runHook s h).cur = s.cur := by
  unfold runHook
  have := foldl_eq St.cur runEff runEff_cur (h.1.2.run s.g).2
    { note (.exec h.1.1 h.1.2.done.isSome) s with g := (h.1.2.run s.g).1 }
  simp only
  split
  · exact (setEv_cur _ _).trans this
  · exact this

theorem runFail_cur (s : St σ G V) (h : (Nat × Hook σ G V) × Int) : (runFail s h).cur = s.cur :=
  foldl_eq St.cur runEff runEff_cur (h.1.2.run s.g).2
    { note (.hookRaise h.1.1) s with g := (h.1.2.run s.g).1 }

theorem callbacks_cur (sys : Sys σ G V) (s : St σ G V) :
    (callbacks sys s).2.cur = s.cur :=
  foldl_eq St.cur runHook runHook_cur (Priority.sorted s.hooks) s

theorem doStep_inv (sys : Sys σ G V) {s : St σ G V} (h : InvX [.clock] s) (hc : ¬ (s.clock = .off ∨ s.clock = .dead)) :
    Inv (doStep sys s) := by
  unfold doStep
  simp only
  have h1 : InvX [.clock] (setEv 0 (note .step
      { s with g := sys.dutStep s.g, cycles := s.cycles + 1 })) := setEv_inv ⟨h.core, h.main⟩
  apply clockYield_inv
  · refine ⟨{ h1.core with hev := ?_ }, h1.main⟩
    intro e he
    by_cases h0 : e = 0
    · subst h0
      exact absurd he (by simp [upd])
    · apply h1.core.hev
      simpa [upd, h0] using he
  · show ¬ ((setEv 0 _).clock = _ ∨ (setEv 0 _).clock = _)
    rw [setEv_clock]; exact hc

theorem cancel_inv {s : St σ G V} (h : InvX [.clock] s) (hc : s.cur = none)
    (ho : ¬ (s.clock = .off ∨ s.clock = .dead)) (hd : s.testDone = true) :
    Inv (push .clock { cancelAll s with clock := .afterCancel }) := by
  have hm := h.main hd
  refine ⟨?_, fun _ => hm⟩
  have h1 : InvC s.n s.st (([.clock] ++ s.batch) ++ s.ready) s.ev s.waiters s.q s.getters
      s.joiners s.clock none := by
    have := h.core; unfold InvS at this; rw [hc, ← List.append_assoc] at this; exact this
  have h2 := InvC.cancel h1 hm
  have hq : ∀ a, (s.batch.filter keepMain ++ (s.ready.filter keepMain ++ [Handle.clock])).count a =
      (([Handle.clock] ++ s.batch).filter keepMain ++ s.ready.filter keepMain).count a := by
    intro a
    simp only [List.filter_append, List.count_append]
    have : List.filter keepMain [Handle.clock] = [Handle.clock] := rfl
    rw [this]; omega
  have hp : ∀ p : Handle → Bool,
      (s.batch.filter keepMain ++ (s.ready.filter keepMain ++ [Handle.clock])).countP p =
      (([Handle.clock] ++ s.batch).filter keepMain ++ s.ready.filter keepMain).countP p := by
    intro a
    simp only [List.filter_append, List.countP_append]
    have : List.filter keepMain [Handle.clock] = [Handle.clock] := rfl
    rw [this]; omega
  unfold InvS push cancelAll note
  simp only [hc]
  refine { h2 with hq := ?_, hclk := ?_, hgetq := ?_ }
  · intro t
    exact (hq _).trans (h2.hq t)
  · refine (hq _).trans (h2.hclk.trans ?_)
    rw [if_neg ho, if_neg (by simp)]
  · intro y hy
    refine Nat.le_trans (h2.hgetq y hy) (Nat.le_of_eq ?_)
    exact (hp _).symm

theorem die_inv {s : St σ G V} (h : InvX [.clock] s) (ho : ¬ (s.clock = .off ∨ s.clock = .dead))
    (ran : List Nat) : Inv (die ran s) := by
  refine ⟨?_, h.main⟩
  have h1 := h.core
  unfold InvS at h1 ⊢
  refine { h1 with hq := ?_, hclk := ?_, hgetq := ?_ }
  · intro t
    have := h1.hq t
    simpa [die] using this
  · have := h1.hclk
    rw [if_neg ho] at this
    simp only [die, or_true, if_true, List.nil_append]
    rw [List.cons_append, List.nil_append, List.count_cons_self] at this
    omega
  · intro y hy
    have := h1.hgetq y hy
    simpa [isGet, die] using this

theorem runClock_inv (sys : Sys σ G V) {s : St σ G V} (h : InvX [.clock] s) (hc : s.cur = none)
    (ho : ¬ (s.clock = .off ∨ s.clock = .dead)) : Inv (runClock sys s) := by
  unfold runClock clockTurn
  cases hcl : s.clock with
  | off => exact absurd (.inl hcl) ho
  | dead => exact absurd (.inr hcl) ho
  | begin => exact clockYield_inv h ho
  | afterCancel => exact doStep_inv sys h ho
  | check =>
    simp only
    have hcb := callbacks_inv sys h
    have hcbc : ¬ ((callbacks sys s).2.clock = .off ∨ (callbacks sys s).2.clock = .dead) := by
      rw [callbacks_clock]; exact ho
    by_cases h1 : (hasUnwait s || s.flag) = true
    · rw [if_pos h1]; exact clockYield_inv h ho
    · rw [if_neg h1]
      cases hr : raising (Priority.sorted s.hooks) [] s with
      | some r =>
        have hr1 := raising_rule (P := InvX [.clock]) (fun s x h => runHook_inv h x)
          (fun s x h => runFail_inv h x) hr h
        have hr2 := raising_rule (P := fun s' => s'.clock = s.clock)
          (fun s x h => (runHook_clock s x).trans h) (fun s x h => (runFail_clock s x).trans h) hr rfl
        exact die_inv hr1 (by rw [hr2]; exact ho) _
      | none =>
      simp only
      by_cases h2 : (callbacks sys s).1 = true
      · rw [if_pos h2]; exact clockYield_inv hcb hcbc
      · rw [if_neg h2]
        by_cases h3 : (callbacks sys s).2.testDone = true
        · rw [if_pos h3]
          exact cancel_inv hcb (by rw [callbacks_cur]; exact hc) hcbc h3
        · rw [if_neg h3]; exact doStep_inv sys hcb hcbc

theorem step_inv (sys : Sys σ G V) (due : List Nat) {s : St σ G V} (h : Inv s) :
    Inv (step sys due s) := by
  unfold step
  split
  · rename_i t k hc
    exact exec_inv h hc _
  · rename_i hc
    have h1 : InvC s.n s.st (s.batch ++ s.ready) s.ev s.waiters s.q s.getters s.joiners s.clock
      none := by
      have := h.core; unfold InvS at this; rw [hc] at this; exact this
    split
    · rename_i hd rest hb
      cases hd with
      | task t => exact resume_inv h hc hb
      | clock =>
        have hx : InvX [.clock] { s with batch := rest } := by
          refine ⟨?_, h.main⟩
          have := h.core
          unfold InvS at this ⊢
          rw [hb] at this
          exact this
        refine runClock_inv sys hx hc ?_
        intro hoff
        have := h1.hclk
        rw [hb, if_pos hoff] at this
        simp at this
      | stop =>
        refine ⟨?_, h.main⟩
        unfold InvS
        have h2 : InvC s.n s.st (rest ++ s.ready) s.ev s.waiters s.q s.getters s.joiners s.clock
            none := by
          apply h1.requeue <;> rw [hb] <;> intros <;> simp [isGet]
        simp only [runHandle, hc]
        exact h2
      | fire t =>
        have h2 : InvC s.n s.st (rest ++ s.ready) s.ev s.waiters s.q s.getters s.joiners s.clock
            none := by
          apply h1.requeue <;> rw [hb] <;> intros <;> simp [isGet]
        simp only [runHandle]
        split
        · rename_i k hk
          refine ⟨?_, fun hd => finalOrDone_wake _ _ _ (h.main hd)⟩
          have := h2.fire hk
          unfold InvS wake
          simp only [hc]
          rw [List.append_assoc] at this
          exact this
        · refine ⟨?_, h.main⟩
          unfold InvS
          simp only [hc]
          exact h2
    · rename_i hb
      split
      · exact h
      · refine ⟨?_, h.main⟩
        unfold InvS
        simp only [hc]
        have hcount : ∀ a, (∀ t, a ≠ Handle.fire t) → (due.map Handle.fire).count a = 0 := by
          intro a ha
          rw [List.count_eq_zero]
          intro hm
          obtain ⟨t, _, ht⟩ := List.mem_map.1 hm
          exact ha t ht.symm
        apply h1.requeue <;> rw [hb] <;> intros <;> simp [List.count_append, List.countP_append]
        · exact hcount _ (by simp)
        · exact hcount _ (by simp)

theorem reach_inv {sys : Sys σ G V} {g : G} {k : σ} {s : St σ G V} (h : Reach sys g k s) :
    Inv s := by
  induction h with
  | init => exact init_inv g k
  | step due _ ih => exact step_inv sys due ih

end Toffee.Loop
