import Verif.Lemmas.BenchMix

/-! The run of the test bench of `Verif.Model.BenchMix`: several background tasks. -/

namespace Toffee.BenchMix

open Toffee.Loop Toffee.LoopSym
open Toffee.Bench (runMeth)

variable {X Y D M : Type}
variable {b : Bench X Y D M} {xs : List X} {xa : Nat → X} {ra : Nat → Ref X Y M} {ya : Nat → Y}

/-- The hooks after the method of the calls `a`, ..., `a + K - 1`. -/
def posts (b : Bench X Y D M) (a K : Nat) : List (Nat × Nat) :=
  (List.range' a K).flatMap fun i => (List.range' b.pre.length b.post.length).map fun j => (i, j)

theorem posts_zero (a : Nat) : posts b a 0 = [] := rfl

theorem posts_succ (a K : Nat) : posts b a (K + 1) =
    ((List.range' b.pre.length b.post.length).map fun j => (a, j)) ++ posts b (a + 1) K := by
  unfold posts; rw [List.range'_succ, List.flatMap_cons]

theorem evNum_post (a : Nat) (h : b.pre.length = 0) :
    evNum b (a + 1) b.pre.length = evNum b a b.pre.length + b.post.length := by
  rw [h, evNum_succ, h, Nat.zero_add]
  unfold evNum; omega

theorem posts_ev (K : Nat) : ∀ (a : Nat), (K ≤ 1 ∨ b.pre.length = 0) →
    (posts b a K).map (fun q => evNum b q.1 q.2) = List.range' (evNum b a b.pre.length) (K * b.post.length) := by
  induction K with
  | zero => intro a _; simp [posts_zero]
  | succ K ih =>
    intro a hK
    have h1 : ((List.range' b.pre.length b.post.length).map fun j => (a, j)).map (fun q => evNum b q.1 q.2) =
        List.range' (evNum b a b.pre.length) b.post.length := by
      rw [List.map_map, show (fun q : Nat × Nat => evNum b q.1 q.2) ∘ (fun j => (a, j)) =
        fun j => evNum b a 0 + j from by funext j; simp only [Function.comp_apply, evNum]; omega,
        List.map_add_range']
      congr 1
    rw [posts_succ, List.map_append, h1]
    rcases hK with hK | hK
    · have : K = 0 := by omega
      subst this
      simp [posts_zero]
    · rw [ih (a + 1) (.inr hK), evNum_post a hK, Nat.succ_mul, Nat.add_comm (K * _), List.range'_append_1]

/-- The tasks `T`, `T + 1`, ... each await the first of `s` new tasks. -/
def addJ (s : Nat) : Nat → Nat → Nat → (Nat → List Nat) → Nat → List Nat
  | 0, _, _, J => J
  | K + 1, T, n, J => addJ s K (T + 1) (n + s) (upd J n (J n ++ [T]))

theorem addJ_out (s : Nat) (K : Nat) : ∀ (T n : Nat) (J : Nat → List Nat) (u : Nat), 0 < s →
    (u < n ∨ n + K * s ≤ u) → addJ s K T n J u = J u := by
  induction K with
  | zero => intros; rfl
  | succ K ih =>
    intro T n J u hs hu
    rw [Nat.succ_mul] at hu
    have : u ≠ n := by omega
    rw [addJ, ih _ _ _ _ hs (by omega)]
    simp [upd, this]

theorem addJ_flat (s : Nat) (hs : 0 < s) (K : Nat) : ∀ (T n : Nat) (J : Nat → List Nat), (∀ u, n ≤ u → J u = []) →
    (List.range' n (K * s)).flatMap (addJ s K T n J) = List.range' T K := by
  induction K with
  | zero => intros; simp
  | succ K ih =>
    intro T n J hJ
    rw [Nat.succ_mul, Nat.add_comm (K * s), ← List.range'_append_1, List.flatMap_append, List.range'_succ, addJ,
      ih (T + 1) (n + s) _ (fun u hu => by
        have : u ≠ n := by omega
        simp [upd, this, hJ u (by omega)])]
    obtain ⟨s', rfl⟩ : ∃ s', s = s' + 1 := ⟨s - 1, by omega⟩
    rw [List.range'_succ, List.flatMap_cons, addJ_out _ _ _ _ _ _ hs (.inl (by omega))]
    have h2 : (List.range' (n + 1) s').flatMap (addJ (s' + 1) K (T + 1) (n + (s' + 1)) (upd J n (J n ++ [T]))) = [] := by
      rw [List.flatMap_eq_nil_iff]
      intro u hu
      rw [List.mem_range'_1] at hu
      rw [addJ_out _ _ _ _ _ _ hs (.inl (by omega))]
      have : u ≠ n := by omega
      simp [upd, this, hJ u (by omega)]
    rw [h2]
    simp [upd, hJ n (Nat.le_refl n)]

theorem addJ_mem (s : Nat) (K : Nat) : ∀ (T n : Nat) (J : Nat → List Nat) (u t : Nat),
    t ∈ addJ s K T n J u → t ∈ J u ∨ (T ≤ t ∧ t < T + K) := by
  induction K with
  | zero => intro T n J u t h; exact .inl h
  | succ K ih =>
    intro T n J u t h
    rcases ih _ _ _ _ _ h with h | h
    · unfold upd at h
      split at h
      · rename_i e
        subst e
        rcases List.mem_append.1 h with h | h
        · exact .inl h
        · simp at h; exact .inr (by omega)
      · exact .inl h
    · exact .inr (by omega)

/-- Several background tasks ask for their hooks. -/
theorem bg_begins (h : Gh b xs xa ra) (hN : 0 < b.post.length) (ya : Nat → Y) (K : Nat) :
    ∀ (T a : Nat) (rest : List Handle) (p : BP Y D M), p.cur = none →
    p.batch = (List.range' T K).map .task ++ rest →
    (∀ k < K, p.lv (T + k) = some (.ready (.background (a + k) (ya (a + k)) 0))) → T + K ≤ p.n →
    a + K ≤ xs.length → (K ≤ 1 ∨ b.pre.length = 0) →
    To (sys b xs) p
      { p with
        batch := rest
        hooks := p.hooks ++ (posts b a K).map (req b xa ra)
        n := p.n + K * b.post.length
        ready := p.ready ++ (List.range' p.n (K * b.post.length)).map .task
        lv := fun t => if T ≤ t ∧ t < T + K then
            some (.pend (.join (p.n + (t - T) * b.post.length) (fun _ => .bjoin (a + (t - T)) (ya (a + (t - T)))
              (List.range' (p.n + (t - T) * b.post.length + 1) (b.post.length - 1))) .failed))
          else if p.n ≤ t ∧ t < p.n + K * b.post.length then
            some (.ready (.wait (evNum b a b.pre.length + (t - p.n))))
          else p.lv t
        joiners := addJ b.post.length K T p.n p.joiners } := by
  induction K with
  | zero =>
    intro T a rest p hc hb _ _ _ _
    refine To.eq ?_
    obtain ⟨cur, batch, ready, n, lv, flag, hooks, clock, td, g, cyc, ev, wt, jn, stp, ab⟩ := p
    simp only at hc hb
    subst hc
    simp only [List.range'_zero, List.map_nil, List.nil_append] at hb
    subst hb
    simp only [posts_zero, Nat.zero_mul, List.range'_zero, List.map_nil, List.append_nil, Nat.add_zero]
    congr 1
    funext t
    rw [if_neg (by omega), if_neg (by omega)]
  | succ K ih =>
    intro T a rest p hc hb hl hT ha hK
    rw [List.range'_succ, List.map_cons, List.cons_append] at hb
    refine (bg_begin h hN (by omega) p hc hb (hl 0 (by omega)) (by omega)).trans ?_
    refine (ih (T + 1) (a + 1) rest _ (by exact hc) (by rfl) ?_ (by simp only; omega) (by omega) (by omega)).trans (To.eq ?_)
    · intro k hk
      have := hl (k + 1) (by omega)
      rw [show T + (k + 1) = T + 1 + k by omega, show a + (k + 1) = a + 1 + k by omega] at this
      simp only
      rw [if_neg (by omega), if_neg (by omega)]
      exact this
    · simp only [Nat.succ_mul]
      congr 1
      · rw [Nat.add_comm (K * _), ← List.range'_append_1, List.map_append, List.append_assoc]
      · omega
      · funext t
        by_cases h1 : t = T
        · subst h1
          rw [if_neg (by omega), if_neg (by omega), if_pos rfl, if_pos (by omega)]
          simp
        · by_cases h2 : T + 1 ≤ t ∧ t < T + 1 + K
          · rw [if_pos h2, if_pos (by omega)]
            obtain ⟨k, rfl⟩ : ∃ k, t = T + 1 + k := ⟨t - (T + 1), by omega⟩
            rw [show T + 1 + k - (T + 1) = k by omega, show T + 1 + k - T = k + 1 by omega, Nat.succ_mul,
              show p.n + b.post.length + k * b.post.length = p.n + (k * b.post.length + b.post.length) by omega,
              show a + 1 + k = a + (k + 1) by omega]
          · rw [if_neg h2]
            by_cases h3 : p.n + b.post.length ≤ t ∧ t < p.n + b.post.length + K * b.post.length
            · rw [if_pos h3, if_neg (by omega), if_pos (by omega)]
              congr 3
              rcases hK with hK | hK
              · have : K = 0 := by omega
                subst this
                omega
              · rw [evNum_post a hK]; omega
            · rw [if_neg h3, if_neg h1]
              have h5 : ¬ (T ≤ t ∧ t < T + (K + 1)) := by omega
              by_cases h4 : p.n ≤ t ∧ t < p.n + b.post.length
              · rw [if_pos h4, if_neg h5, if_pos (by omega)]; rfl
              · rw [if_neg h4, if_neg h5, if_neg (by omega)]
      · rw [posts_succ, List.map_append, List.map_map, List.append_assoc]; rfl

/-- Several background tasks compare. -/
theorem bg_ends (c : Nat → Nat) (yy : Nat → Y) (Wf : Nat → Nat) (tsf : Nat → List Nat) (l : List Nat) :
    ∀ (rest : List Handle) (p : BP Y D M), p.cur = none → p.batch = l.map .task ++ rest → l.Nodup → 0 ∉ l →
    (∀ u ∈ l, p.lv u = some (.fin (.join (Wf u) (fun _ => .bjoin (c u) (yy u) (tsf u)) .failed))) →
    (∀ u ∈ l, p.lv (Wf u) = some (.done (some ())) ∧ ∀ t ∈ tsf u, p.lv t = some (.done (some ()))) →
    (∀ u ∈ l, p.joiners u = []) →
    To (sys b xs) p
      { p with
        batch := rest
        lv := fun t => if t ∈ l then none else p.lv t
        stopping := p.stopping || !(l.all fun u => (p.g.results (c u)).all (agrees b (yy u)))
        aborted := p.aborted || !(l.all fun u => (p.g.results (c u)).all (agrees b (yy u))) } := by
  induction l with
  | nil =>
    intro rest p hc hb _ _ _ _ _
    refine To.eq ?_
    obtain ⟨cur, batch, ready, n, lv, flag, hooks, clock, td, g, cyc, ev, wt, jn, stp, ab⟩ := p
    simp only at hc hb
    subst hc
    simp only [List.map_nil, List.nil_append] at hb
    subst hb
    simp
  | cons u l ih =>
    intro rest p hc hb hn h0 hl hd hj
    rw [List.map_cons, List.cons_append] at hb
    rw [List.nodup_cons] at hn
    have hne : ∀ t, p.lv t = some (.done (some ())) → t ≠ u := by
      intro t ht e
      rw [e, hl u (by simp)] at ht
      cases ht
    refine (bg_end p hc hb (hl u (by simp)) (hd u (by simp)).1 (hd u (by simp)).2
      (fun e => h0 (by simp [e])) (hj u (by simp))).trans ?_
    have key : ∀ q : BP Y D M, q.cur = none → q.batch = l.map .task ++ rest → q.lv = upd p.lv u none →
        q.joiners = p.joiners →
        To (sys b xs) q
          { q with
            batch := rest
            lv := fun t => if t ∈ l then none else q.lv t
            stopping := q.stopping || !(l.all fun u => (q.g.results (c u)).all (agrees b (yy u)))
            aborted := q.aborted || !(l.all fun u => (q.g.results (c u)).all (agrees b (yy u))) } := by
      intro q hc' hb' hlv hjn
      refine ih rest q hc' hb' hn.2 (fun h => h0 (by simp [h])) ?_ ?_ ?_
      · intro v hv
        have : v ≠ u := fun e => hn.1 (e ▸ hv)
        rw [hlv]
        simp only [upd, this, if_false]
        exact hl v (by simp [hv])
      · intro v hv
        obtain ⟨h1, h2⟩ := hd v (by simp [hv])
        rw [hlv]
        refine ⟨?_, fun t ht => ?_⟩
        · simp only [upd, hne _ h1, if_false]; exact h1
        · simp only [upd, hne _ (h2 t ht), if_false]; exact h2 t ht
      · intro v hv
        rw [hjn]; exact hj v (by simp [hv])
    have hlv : (fun t => if t ∈ l then none else upd p.lv u none t) = fun t => if t ∈ u :: l then none else p.lv t := by
      funext t
      by_cases h1 : t ∈ l <;> by_cases h2 : t = u <;> simp [upd, h1, h2]
    by_cases hg : (p.g.results (c u)).all (agrees b (yy u)) = true
    · rw [if_pos hg]
      refine (key _ (by exact hc) (by rfl) (by rfl) (by rfl)).trans (To.eq ?_)
      simp only [hlv, List.all_cons, hg, Bool.true_and]
    · rw [if_neg hg]
      refine (key _ (by exact hc) (by rfl) (by rfl) (by rfl)).trans (To.eq ?_)
      have hg' : (p.g.results (c u)).all (agrees b (yy u)) = false := by simpa using hg
      simp only [hlv, List.all_cons, hg', Bool.false_and, Bool.not_false, Bool.or_true, Bool.true_or]

/-- With no hooks after the method, a background task compares at once. -/
theorem bg_now (hp : b.post = []) {A i : Nat} {y : Y} {rest : List Handle} (p : BP Y D M) (hc : p.cur = none)
    (hb : p.batch = .task A :: rest) (hA : p.lv A = some (.ready (.background i y 0)))
    (hA0 : A ≠ 0) (hj : p.joiners A = []) :
    To (sys b xs) p
      (if (p.g.results i).all (agrees b y) then { p with batch := rest, lv := upd p.lv A none }
       else { p with batch := rest, lv := upd p.lv A none, stopping := true, aborted := true }) := by
  refine To.one (fun s h => runReady h hc hb hA) ?_
  refine To.one (fun s h => exComp h rfl (prog_bhooks (by simp [hp]) _)) ?_
  refine To.one (fun s h => exComp h rfl (prog_bgathered (by simp [hp]) _)) ?_
  refine (bjoin_loop [] _ rfl (by simp)).trans ?_
  obtain ⟨cur, batch, ready, n, lv, flag, hooks, clock, td, g, cyc, ev, wt, jn, stp, ab⟩ := p
  simp only at hc hj
  subst hc
  by_cases hg : (g.results i).all (agrees b y) = true
  · rw [if_pos hg]
    refine To.one (fun s h => exRet (v := ()) h rfl (prog_good hg) hA0) ?_
    simp only [hj, List.not_mem_nil, if_false, List.map_nil, List.append_nil]
    refine To.forget A (some ()) (by simp [upd]) (To.eq ?_)
    congr 1
    · funext t
      by_cases h : t = A <;> simp [upd, h]
    · funext t
      by_cases h : t = A
      · subst h; simp [upd, hj]
      · simp [upd, h]
  · rw [if_neg hg]
    refine To.one (fun s h => exRaise h rfl (prog_bad (by simpa using hg)) hA0 hj) (To.eq ?_)
    congr 1
    funext t
    by_cases h : t = A <;> simp [upd, h]

theorem bg_nows (hp : b.post = []) (ya : Nat → Y) (K : Nat) :
    ∀ (T a : Nat) (rest : List Handle) (p : BP Y D M), p.cur = none →
    p.batch = (List.range' T K).map .task ++ rest → 1 ≤ T →
    (∀ k < K, p.lv (T + k) = some (.ready (.background (a + k) (ya (a + k)) 0))) →
    (∀ k < K, p.joiners (T + k) = []) →
    To (sys b xs) p
      { p with
        batch := rest
        lv := fun t => if T ≤ t ∧ t < T + K then none else p.lv t
        stopping := p.stopping || !((List.range' a K).all fun i => (p.g.results i).all (agrees b (ya i)))
        aborted := p.aborted || !((List.range' a K).all fun i => (p.g.results i).all (agrees b (ya i))) } := by
  induction K with
  | zero =>
    intro T a rest p hc hb _ _ _
    refine To.eq ?_
    obtain ⟨cur, batch, ready, n, lv, flag, hooks, clock, td, g, cyc, ev, wt, jn, stp, ab⟩ := p
    simp only at hc hb
    subst hc
    simp only [List.range'_zero, List.map_nil, List.nil_append] at hb
    subst hb
    simp only [List.range'_zero, List.all_nil, Bool.not_true, Bool.or_false]
    congr 1
    funext t
    rw [if_neg (by omega)]
  | succ K ih =>
    intro T a rest p hc hb hT hl hj
    rw [List.range'_succ, List.map_cons, List.cons_append] at hb
    refine (bg_now hp p hc hb (hl 0 (by omega)) (by omega) (hj 0 (by omega))).trans ?_
    have key : ∀ q : BP Y D M, q.cur = none → q.batch = (List.range' (T + 1) K).map .task ++ rest →
        q.lv = upd p.lv T none → q.joiners = p.joiners →
        To (sys b xs) q
          { q with
            batch := rest
            lv := fun t => if T + 1 ≤ t ∧ t < T + 1 + K then none else q.lv t
            stopping := q.stopping || !((List.range' (a + 1) K).all fun i => (q.g.results i).all (agrees b (ya i)))
            aborted := q.aborted || !((List.range' (a + 1) K).all fun i => (q.g.results i).all (agrees b (ya i))) } := by
      intro q hc' hb' hlv hjn
      refine ih (T + 1) (a + 1) rest q hc' hb' (by omega) ?_ ?_
      · intro k hk
        have := hl (k + 1) (by omega)
        rw [hlv]
        simp only [upd, show ¬ T + 1 + k = T by omega, if_false]
        rw [show T + (k + 1) = T + 1 + k by omega, show a + (k + 1) = a + 1 + k by omega] at this
        exact this
      · intro k hk
        rw [hjn, show T + 1 + k = T + (k + 1) by omega]
        exact hj (k + 1) (by omega)
    have hlv : (fun t => if T + 1 ≤ t ∧ t < T + 1 + K then none else upd p.lv T none t) =
        fun t => if T ≤ t ∧ t < T + (K + 1) then none else p.lv t := by
      funext t
      by_cases h1 : T + 1 ≤ t ∧ t < T + 1 + K
      · rw [if_pos h1, if_pos (by omega)]
      · rw [if_neg h1]
        by_cases h2 : t = T
        · subst h2; rw [if_pos (by omega)]; simp [upd]
        · rw [if_neg (by omega)]; simp [upd, h2]
    have e1 : a + 0 = a := rfl
    by_cases hg : (p.g.results (a + 0)).all (agrees b (ya (a + 0))) = true
    · rw [if_pos hg]
      refine (key _ (by exact hc) (by rfl) (by rfl) (by rfl)).trans (To.eq ?_)
      rw [e1] at hg
      simp only [hlv, List.range'_succ, List.all_cons, hg, Bool.true_and]
    · rw [if_neg hg]
      refine (key _ (by exact hc) (by rfl) (by rfl) (by rfl)).trans (To.eq ?_)
      rw [e1] at hg
      have hg' : (p.g.results a).all (agrees b (ya a)) = false := by simpa using hg
      simp only [hlv, List.range'_succ, List.all_cons, hg', Bool.false_and, Bool.not_false, Bool.or_true, Bool.true_or]

/-- The test waits, and the background tasks of the calls `a`, ..., `a + K - 1` are about to begin; and so is
the clock, if `f`. -/
def pending (b : Bench X Y D M) (ya : Nat → Y) (f : Bool) (T K a : Nat) (z : Wait (Pc Y D) Unit) (td : Bool)
    (wt : List Nat) (g : G Y D M) (c : Nat) : BP Y D M where
  batch := if f then [] else [.clock]
  ready := if f then .clock :: (List.range' T K).map .task else (List.range' T K).map .task
  clock := if f then .begin else .check
  n := T + K
  lv := fun t => if t = 0 then some (.pend z)
    else if T ≤ t ∧ t < T + K then some (.ready (.background (a + (t - T)) (ya (a + (t - T))) 0))
    else none
  testDone := td
  g := g
  cycles := c
  ev := fun e => decide (1 ≤ e ∧ e < evNum b a b.pre.length)
  waiters := upd (fun _ => []) 0 wt
  joiners := fun _ => []

/-- The test waits and there is nothing else. -/
def calm (n E : Nat) (z : Wait (Pc Y D) Unit) (td : Bool) (wt : List Nat) (g : G Y D M) (c : Nat) : BP Y D M where
  batch := [.clock]
  n := n
  lv := fun t => if t = 0 then some (.pend z) else none
  testDone := td
  g := g
  cycles := c
  ev := fun e => decide (1 ≤ e ∧ e < E)
  waiters := upd (fun _ => []) 0 wt
  joiners := fun _ => []

/-- The calls `a`, ..., `a + K - 1` compare well. -/
def okCalls (b : Bench X Y D M) (ya : Nat → Y) (a K : Nat) (g : G Y D M) : Bool :=
  (List.range' a K).all fun i => (g.results i).all (agrees b (ya i))

/-- The test waits, and so do the background tasks. -/
def waiting (b : Bench X Y D M) (xa : Nat → X) (ra : Nat → Ref X Y M) (ya : Nat → Y) (T K a : Nat)
    (z : Wait (Pc Y D) Unit) (td : Bool) (wt : List Nat) (g : G Y D M) (c : Nat) : BP Y D M where
  batch := [.clock]
  n := T + K + K * b.post.length
  lv := fun t => if T + K ≤ t ∧ t < T + K + K * b.post.length then
      some (.pend (.ev (evNum b a b.pre.length + (t - (T + K))) .wait1))
    else if T ≤ t ∧ t < T + K then
      some (.pend (.join (T + K + (t - T) * b.post.length) (fun _ => .bjoin (a + (t - T)) (ya (a + (t - T)))
        (List.range' (T + K + (t - T) * b.post.length + 1) (b.post.length - 1))) .failed))
    else if T + K ≤ t ∧ t < T + K + K * b.post.length then
      some (.ready (.wait (evNum b a b.pre.length + (t - (T + K)))))
    else if t = 0 then some (.pend z)
    else if T ≤ t ∧ t < T + K then some (.ready (.background (a + (t - T)) (ya (a + (t - T))) 0))
    else none
  hooks := (posts b a K).map (req b xa ra)
  testDone := td
  g := g
  cycles := c
  ev := fun e => decide (1 ≤ e ∧ e < evNum b a b.pre.length)
  waiters := fun e => if evNum b a b.pre.length ≤ e ∧ e < evNum b a b.pre.length + K * b.post.length then
      upd (fun _ => []) 0 wt e ++ [T + K + (e - evNum b a b.pre.length)]
    else upd (fun _ => []) 0 wt e
  joiners := addJ b.post.length K T (T + K) fun _ => []

theorem pending_waiting (h : Gh b xs xa ra) (hN : 0 < b.post.length) {f : Bool} {T K a : Nat} {z : Wait (Pc Y D) Unit}
    {td : Bool} {wt : List Nat} {g : G Y D M} {c : Nat} (hT : 1 ≤ T) (hK : 0 < K) (ha : a + K ≤ xs.length)
    (hK' : K ≤ 1 ∨ b.pre.length = 0) :
    To (sys b xs) (pending b ya f T K a z td wt g c) (waiting b xa ra ya T K a z td wt g c) := by
  have hKN : 0 < K * b.post.length := Nat.mul_pos hK hN
  have hE := evNum_pos (b := b) a b.pre.length
  unfold pending
  cases f with
  | false =>
    simp only [Bool.false_eq_true, if_false]
    refine To.one (fun s h => clockBusy h rfl rfl rfl T (by simp only; omega) ?_) ?_
    · simp only [show ¬ T = 0 by omega, if_false]
      rw [if_pos (by omega)]; rfl
    refine To.one (fun s h => newBatch h rfl rfl rfl) ?_
    refine (bg_begins h hN ya K T a [.clock] _ rfl rfl ?_ (by simp only; omega) ha hK').trans ?_
    · intro k hk
      simp only [show ¬ T + k = 0 by omega, if_false]
      rw [if_pos (by omega), show T + k - T = k by omega]
    simp only [List.nil_append]
    refine To.one (fun s h => clockBusy h rfl rfl rfl (T + K) (by simp only; omega) ?_) ?_
    · simp only
      rw [if_neg (by omega), if_pos (by omega)]; rfl
    refine To.one (fun s h => newBatch h rfl rfl rfl) ?_
    refine (wait_loop (K * b.post.length) (T + K) (evNum b a b.pre.length) [.clock] _ rfl rfl ?_ ?_).trans (To.eq rfl)
    · intro j hj
      simp only
      rw [if_neg (by omega), if_pos (by omega), show T + K + j - (T + K) = j by omega]
    · intro j hj
      exact decide_eq_false (by omega)
  | true =>
    simp only [if_true]
    refine To.one (fun s h => newBatch h rfl rfl rfl) ?_
    refine To.one (fun s h => clockBegin h rfl rfl rfl) ?_
    refine (bg_begins h hN ya K T a [] _ rfl (by simp) ?_ (by simp only; omega) ha hK').trans ?_
    · intro k hk
      simp only [show ¬ T + k = 0 by omega, if_false]
      rw [if_pos (by omega), show T + k - T = k by omega]
    simp only [List.nil_append]
    refine To.one (fun s h => newBatch h rfl rfl rfl) ?_
    refine To.one (fun s h => clockBusy h rfl rfl rfl (T + K) (by simp only; omega) ?_) ?_
    · simp only
      rw [if_neg (by omega), if_pos (by omega)]; rfl
    refine (wait_loop (K * b.post.length) (T + K) (evNum b a b.pre.length) [] _ rfl (by simp) ?_ ?_).trans ?_
    · intro j hj
      simp only
      rw [if_neg (by omega), if_pos (by omega), show T + K + j - (T + K) = j by omega]
    · intro j hj
      exact decide_eq_false (by omega)
    exact To.one (fun s h => newBatch h rfl rfl rfl) (To.eq rfl)

theorem waiting_calm (hN : 0 < b.post.length) {T K a : Nat} {z : Wait (Pc Y D) Unit}
    {td : Bool} {wt : List Nat} {g : G Y D M} {c : Nat} (hT : 1 ≤ T) (hK : 0 < K)
    (hK' : K ≤ 1 ∨ b.pre.length = 0) :
    To (sys b xs) (waiting b xa ra ya T K a z td wt g c)
      { calm (T + K + K * b.post.length) (evNum b a b.pre.length + K * b.post.length) z td wt
          (runItems b xa ra (srt ra (posts b a K)) g) c with
        stopping := !okCalls b ya a K (runItems b xa ra (srt ra (posts b a K)) g)
        aborted := !okCalls b ya a K (runItems b xa ra (srt ra (posts b a K)) g) } := by
  have hKN : 0 < K * b.post.length := Nat.mul_pos hK hN
  have hE := evNum_pos (b := b) a b.pre.length
  unfold waiting
  have hev := posts_ev (b := b) K a hK'
  have hw : (posts b a K).map (fun q => T + K + (evNum b q.1 q.2 - evNum b a b.pre.length)) =
      List.range' (T + K) (K * b.post.length) := by
    have : (fun q : Nat × Nat => T + K + (evNum b q.1 q.2 - evNum b a b.pre.length)) =
        (fun e => T + K + (e - evNum b a b.pre.length)) ∘ fun q => evNum b q.1 q.2 := rfl
    rw [this, ← List.map_map, hev]
    apply List.ext_getElem
    · simp
    · intro i h1 h2
      simp
  have hmem : ∀ q ∈ posts b a K, evNum b a b.pre.length ≤ evNum b q.1 q.2 ∧
      evNum b q.1 q.2 < evNum b a b.pre.length + K * b.post.length := by
    intro q hq
    have : evNum b q.1 q.2 ∈ (posts b a K).map fun q => evNum b q.1 q.2 := List.mem_map.2 ⟨q, hq, rfl⟩
    rw [hev, List.mem_range'_1] at this
    exact this
  have hjoin : ∀ v u, u ∈ addJ b.post.length K T (T + K) (fun _ => []) v → T ≤ u ∧ u < T + K := by
    intro v u hu
    rcases addJ_mem _ _ _ _ _ _ _ hu with h | h
    · cases h
    · exact h
  have hflat := addJ_flat b.post.length hN K T (T + K) (fun _ => []) (fun _ _ => rfl)
  refine (round (xa := xa) (ra := ra) (fun q => T + K + (evNum b q.1 q.2 - evNum b a b.pre.length)) (posts b a K) _
    rfl rfl rfl rfl rfl rfl rfl ?_ ?_ ?_ ?_ ?_ ?_ ?_ ?_ ?_).trans ?_
  · intro t
    simp only
    by_cases h1 : T + K ≤ t ∧ t < T + K + K * b.post.length
    · rw [if_pos h1]; rfl
    · rw [if_neg h1]
      by_cases h2 : T ≤ t ∧ t < T + K
      · rw [if_pos h2]; rfl
      · rw [if_neg h2, if_neg h1]
        by_cases h3 : t = 0
        · rw [if_pos h3]; rfl
        · rw [if_neg h3, if_neg h2]; rfl
  · rw [hev]; exact List.nodup_range'
  · intro q hq
    have := hmem q hq
    exact decide_eq_false (by omega)
  · intro q hq
    have := hmem q hq
    simp only [upd, show ¬ evNum b q.1 q.2 = 0 by omega, if_false]
    rw [if_pos this]; rfl
  · intro q hq
    have := hmem q hq
    simp only
    rw [if_pos (by omega)]
    congr 3
    omega
  · rw [hw]; exact List.nodup_range'
  · rw [hw, List.mem_range'_1]; omega
  · intro v hv u hu
    have := hjoin v u hu
    rw [hw, List.mem_range'_1]; omega
  · have hT' : T ∈ (List.range' (T + K) (K * b.post.length)).flatMap
        (addJ b.post.length K T (T + K) fun _ => []) := by
      rw [hflat, List.mem_range'_1]; omega
    obtain ⟨v, hv, hu⟩ := List.mem_flatMap.1 hT'
    refine ⟨v, by rw [hw]; exact hv, T, hu, by simp only; omega, ?_⟩
    simp only
    rw [if_neg (by omega), if_pos (by omega)]
    exact ⟨_, rfl⟩
  simp only [hw, hflat, hev]
  have hperm : ((List.map (fun q => T + K + (evNum b q.1 q.2 - evNum b a b.pre.length)) (srt ra (posts b a K))).flatMap
      (addJ b.post.length K T (T + K) fun _ => [])).Perm (List.range' T K) := by
    have h1 := (srt_perm (ra := ra) (posts b a K)).map
      (fun q : Nat × Nat => T + K + (evNum b q.1 q.2 - evNum b a b.pre.length))
    rw [hw] at h1
    have h2 := h1.flatMap_right (addJ b.post.length K T (T + K) fun _ => [])
    rw [hflat] at h2
    exact h2
  generalize (List.map (fun q => T + K + (evNum b q.1 q.2 - evNum b a b.pre.length)) (srt ra (posts b a K))).flatMap
      (addJ b.post.length K T (T + K) fun _ => []) = l at hperm ⊢
  have hlm : ∀ u, u ∈ l ↔ T ≤ u ∧ u < T + K := fun u => by rw [hperm.mem_iff, List.mem_range'_1]
  refine (bg_ends (fun u => a + (u - T)) (fun u => ya (a + (u - T))) (fun u => T + K + (u - T) * b.post.length)
    (fun u => List.range' (T + K + (u - T) * b.post.length + 1) (b.post.length - 1)) l [.clock] _ rfl rfl
    (hperm.nodup_iff.2 List.nodup_range') ?_ ?_ ?_ ?_).trans ?_
  · rw [hlm]; omega
  · intro u hu
    have hu' := (hlm u).1 hu
    simp only [List.mem_range'_1]
    rw [if_neg (by omega), if_pos hu', if_neg (by omega), if_pos hu']
    rfl
  · intro u hu
    have hu' := (hlm u).1 hu
    obtain ⟨k, rfl⟩ : ∃ k, u = T + k := ⟨u - T, by omega⟩
    rw [show T + k - T = k by omega]
    have hk : k * b.post.length + b.post.length ≤ K * b.post.length := by
      rw [← Nat.succ_mul]; exact Nat.mul_le_mul_right _ (by omega)
    refine ⟨?_, fun t ht => ?_⟩
    · simp only [List.mem_range'_1]
      rw [if_pos (by omega)]
    · rw [List.mem_range'_1] at ht
      simp only [List.mem_range'_1]
      rw [if_pos (by omega)]
  · intro u hu
    have hu' := (hlm u).1 hu
    simp only [List.mem_range'_1]
    rw [if_neg (by omega), addJ_out _ _ _ _ _ _ hN (.inl (by omega))]
  have hok : (l.all fun u => ((runItems b xa ra (srt ra (posts b a K)) g).results (a + (u - T))).all
      (agrees b (ya (a + (u - T))))) = okCalls b ya a K (runItems b xa ra (srt ra (posts b a K)) g) := by
    unfold okCalls
    rw [Bool.eq_iff_iff, List.all_eq_true, List.all_eq_true]
    constructor
    · intro h i hi
      rw [List.mem_range'_1] at hi
      have := h (T + (i - a)) ((hlm _).2 (by omega))
      rw [show a + (T + (i - a) - T) = i by omega] at this
      exact this
    · intro h u hu
      have := (hlm u).1 hu
      exact h _ (by rw [List.mem_range'_1]; omega)
  simp only [hok, Bool.false_or]
  refine To.weaken (fun t => if t = 0 then some (.pend z) else none) ?_ (To.eq ?_)
  · intro t
    by_cases h0 : t = 0
    · subst h0
      refine .inl ?_
      simp only [hlm, List.mem_range'_1, if_true]
      rw [if_neg (by omega), if_neg (by omega), if_neg (by omega), if_neg (by omega), if_neg (by omega),
        if_neg (by omega)]
    · simp only [hlm, List.mem_range'_1, h0, if_false]
      by_cases h1 : T ≤ t ∧ t < T + K
      · rw [if_pos h1]; exact .inl rfl
      · rw [if_neg h1]
        by_cases h2 : T + K ≤ t ∧ t < T + K + K * b.post.length
        · rw [if_pos h2]; exact .inr ⟨trivial, _, rfl⟩
        · rw [if_neg h2]
          refine .inl ?_
          simp only [h1, h2, if_false]
  · unfold calm
    congr 1
    · funext e
      simp only [List.mem_range'_1]
      by_cases h1 : evNum b a b.pre.length ≤ e ∧ e < evNum b a b.pre.length + K * b.post.length
      · rw [if_pos h1]
        exact (decide_eq_true (by omega)).symm
      · rw [if_neg h1]
        exact decide_eq_decide.mpr (by omega)
    · funext e
      simp only [List.mem_range'_1]
      by_cases h1 : evNum b a b.pre.length ≤ e ∧ e < evNum b a b.pre.length + K * b.post.length
      · rw [if_pos h1]
        simp only [upd]; rw [if_neg (by omega)]
      · rw [if_neg h1, if_neg h1]
    · funext t
      simp only [List.mem_range'_1]
      by_cases h1 : T + K ≤ t ∧ t < T + K + K * b.post.length
      · rw [if_pos h1]
      · rw [if_neg h1, addJ_out _ _ _ _ _ _ hN (by omega)]

/-- With no hooks after the method, the background tasks compare when they begin. -/
theorem flush_now (hp : b.post = []) {f : Bool} {T K a : Nat} {z : Wait (Pc Y D) Unit} {td : Bool}
    {wt : List Nat} {g : G Y D M} {c : Nat} (hT : 1 ≤ T) (hK : 0 < K) :
    To (sys b xs) (pending b ya f T K a z td wt g c)
      { calm (T + K) (evNum b a b.pre.length) z td wt g c with
        batch := if f then [] else [.clock]
        ready := if f then [.clock] else []
        stopping := !okCalls b ya a K g
        aborted := !okCalls b ya a K g } := by
  have hlv : (fun t => if T ≤ t ∧ t < T + K then none else if t = 0 then some (.pend z)
      else if T ≤ t ∧ t < T + K then some (.ready (.background (a + (t - T)) (ya (a + (t - T))) 0)) else none) =
      (fun t => if t = 0 then some (.pend z) else none : Nat → Option (Status (Pc Y D) Unit)) := by
    funext t
    by_cases h1 : T ≤ t ∧ t < T + K
    · rw [if_pos h1, if_neg (by omega)]
    · rw [if_neg h1, if_neg h1]
  unfold pending
  cases f with
  | false =>
    simp only [Bool.false_eq_true, if_false]
    refine To.one (fun s h => clockBusy h rfl rfl rfl T (by simp only; omega) ?_) ?_
    · simp only [show ¬ T = 0 by omega, if_false]
      rw [if_pos (by omega)]; rfl
    refine To.one (fun s h => newBatch h rfl rfl rfl) ?_
    refine (bg_nows hp ya K T a [.clock] _ rfl rfl hT ?_ (fun _ _ => rfl)).trans (To.eq ?_)
    · intro k hk
      simp only [show ¬ T + k = 0 by omega, if_false]
      rw [if_pos (by omega), show T + k - T = k by omega]
    · simp only [hlv, Bool.false_or]; rfl
  | true =>
    simp only [if_true]
    refine To.one (fun s h => newBatch h rfl rfl rfl) ?_
    refine To.one (fun s h => clockBegin h rfl rfl rfl) ?_
    refine (bg_nows hp ya K T a [] _ rfl (by simp) hT ?_ (fun _ _ => rfl)).trans (To.eq ?_)
    · intro k hk
      simp only [show ¬ T + k = 0 by omega, if_false]
      rw [if_pos (by omega), show T + k - T = k by omega]
    · simp only [hlv, Bool.false_or]; rfl

/-- The background tasks come to their end before the next clock step. -/
theorem flush (h : Gh b xs xa ra) (hN : 0 < b.post.length) {f : Bool} {T K a : Nat} {z : Wait (Pc Y D) Unit} {td : Bool}
    {wt : List Nat} {g : G Y D M} {c : Nat} (hT : 1 ≤ T) (hK : 0 < K) (ha : a + K ≤ xs.length)
    (hK' : K ≤ 1 ∨ b.pre.length = 0) :
    To (sys b xs) (pending b ya f T K a z td wt g c)
      { calm (T + K + K * b.post.length) (evNum b a b.pre.length + K * b.post.length) z td wt
          (runItems b xa ra (srt ra (posts b a K)) g) c with
        stopping := !okCalls b ya a K (runItems b xa ra (srt ra (posts b a K)) g)
        aborted := !okCalls b ya a K (runItems b xa ra (srt ra (posts b a K)) g) } :=
  (pending_waiting h hN hT hK ha hK').trans (waiting_calm hN hT hK hK')

end Toffee.BenchMix
