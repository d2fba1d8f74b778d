import Verif.Lemmas.BenchMixFlush

/-! The run of the test bench of `Verif.Model.BenchMix`: all hooks run after the method. -/

namespace Toffee.BenchMix

open Toffee.Loop Toffee.LoopSym
open Toffee.Bench (runMeth)

variable {X Y D M : Type}
variable {b : Bench X Y D M} {xs : List X} {xa : Nat → X} {ra : Nat → Ref X Y M} {ya : Nat → Y}

local macro "norm" : tactic =>
  `(tactic| simp only [upd, if_true, List.map_cons, List.map_nil, List.cons_append, List.nil_append, List.append_nil])

/-- The test has returned: two more clock steps. -/
theorem calm_end {n E : Nat} {g : G Y D M} {c : Nat} :
    ∃ q : BP Y D M, To (sys b xs) (calm n E (.final ()) true [0] g c) q ∧
      q.cur = none ∧ q.batch = [] ∧ q.stopping = true ∧ q.aborted = false ∧
      q.lv 0 = some (.done (some ())) ∧
      q.g = { g with dut := b.clk (b.clk g.dut) } ∧ q.cycles = c + 2 := by
  refine ⟨?q, ?_, ?_⟩
  rotate_left
  · unfold calm
    refine To.one (fun s h => clockCancel h rfl rfl rfl ?_ rfl rfl rfl rfl) ?_
    · intro t
      by_cases h1 : t = 0 <;> simp [h1, busy]
    refine To.one (fun s h => newBatch h rfl rfl rfl) ?_
    norm
    simp only [List.filter_nil, List.nil_append]
    refine To.one (fun s h => clockAfter h rfl rfl rfl (by simp)) ?_
    refine To.one (fun s h => newBatch h rfl rfl rfl) ?_
    norm
    simp only [List.filter, beq_self_eq_true, List.map_cons, List.map_nil, List.cons_append, List.nil_append]
    refine To.one (fun s h => runFinal (v := ()) h rfl rfl (by simp [Status.finish]) rfl) ?_
    norm
    refine To.one (fun s h => clockCancel h rfl rfl rfl ?_ rfl rfl rfl rfl) ?_
    · intro t
      by_cases h1 : t = 0 <;> simp [h1, busy, upd]
    refine To.one (fun s h => newBatch h rfl rfl rfl) ?_
    norm
    simp only [List.filter, List.cons_append, List.nil_append]
    refine To.one (fun s h => runStop h rfl rfl) ?_
    refine To.one (fun s h => clockAfter h rfl rfl rfl (by simp)) ?_
    exact To.refl
  · refine ⟨rfl, rfl, rfl, rfl, ?_, rfl, rfl⟩
    simp

/-- The loop was told to stop. -/
theorem calm_bad {n E : Nat} {z : Wait (Pc Y D) Unit} {td : Bool} {wt : List Nat} {g : G Y D M} {c : Nat} :
    ∃ q : BP Y D M,
      To (sys b xs) { calm n E z td wt g c with stopping := true, aborted := true } q ∧
      q.cur = none ∧ q.batch = [] ∧ q.stopping = true ∧ q.aborted = true ∧ ∀ r, q.lv 0 ≠ some (.done r) ∧
        q.lv 0 ≠ none := by
  have hq : ∀ t, busy ((fun t => if t = 0 then some (Status.pend z) else none : Nat → Option (Status (Pc Y D) Unit)) t)
      = false := by
    intro t
    by_cases h1 : t = 0 <;> simp [h1, busy]
  cases td with
  | true =>
    refine ⟨_, To.one (fun s h => clockCancel h rfl rfl rfl hq rfl rfl rfl rfl) To.refl, rfl, rfl, rfl, rfl, ?_⟩
    intro r
    simp [calm]
  | false =>
    refine ⟨_, To.one (fun s h => clockStep h rfl rfl rfl hq rfl rfl rfl (by simp [calm]) rfl) To.refl,
      rfl, rfl, rfl, rfl, ?_⟩
    intro r
    simp only [calm, if_true]
    split <;> simp [Status.finish]

/-- How the run ends if everything agrees. -/
structure Good (b : Bench X Y D M) (d : D) (c : Nat) (I : G Y D M → Prop) (q : BP Y D M) : Prop where
  cur : q.cur = none
  batch : q.batch = []
  stopping : q.stopping = true
  aborted : q.aborted = false
  main : q.lv 0 = some (.done (some ()))
  dut : q.g.dut = b.clk (b.clk d)
  cycles : q.cycles = c + 2
  inv : I q.g

/-- How the run ends if something disagrees. -/
structure Bad (q : BP Y D M) : Prop where
  cur : q.cur = none
  batch : q.batch = []
  stopping : q.stopping = true
  aborted : q.aborted = true
  main : ∀ r, q.lv 0 ≠ some (.done r) ∧ q.lv 0 ≠ none

/-- The calls `a`, ..., `a + K - 1` are those that return without a clock cycle in between, call `i` taking `cy i`
cycles. -/
def Cut (n : Nat) (cy : Nat → Nat) (a K : Nat) : Prop :=
  (∀ j, a < j → j < a + K → cy j = 0) ∧ (a + K = n ∨ 0 < cy (a + K))

/-- What the hooks make of the calls: `I a a'` describes the models when the hooks before the method have
run for the calls below `a` and those after the method for the calls below `a'`. -/
structure Models (b : Bench X Y D M) (xs : List X) (xa : Nat → X) (ra : Nat → Ref X Y M) (ya : Nat → Y)
    (I : Nat → Nat → G Y D M → Prop) (ok : Nat → Bool) (cy : Nat → Nat) : Prop where
  dut : ∀ {a a' g} (d : D), I a a' g → I a a' { g with dut := d }
  flush : ∀ {a a' K g}, a' + K ≤ a → a ≤ xs.length → a = xs.length ∨ b.post = [] →
    (b.pre = [] → 0 < K → Cut xs.length cy a' K) → I a a' g →
    I a (a' + K) (runItems b xa ra (srt ra (posts b a' K)) g) ∧
    okCalls b ya a' K (runItems b xa ra (srt ra (posts b a' K)) g) = (List.range' a' K).all ok
  both : ∀ {a K g}, K ≤ a → a < xs.length → K ≤ 1 → 0 < b.pre.length → (K = 0 → a = 0 ∨ b.post = []) → I a (a - K) g →
    I (a + 1) a (runItems b xa ra (srt ra (((List.range' 0 b.pre.length).map fun j => (a, j)) ++
      posts b (a - K) K)) g) ∧
    okCalls b ya (a - K) K (runItems b xa ra (srt ra (((List.range' 0 b.pre.length).map fun j => (a, j)) ++
      posts b (a - K) K)) g) = (List.range' (a - K) K).all ok

/-- The cycles of the calls from `i` on. -/
def total (cy : Nat → Nat) (i : Nat) : Nat → Nat
  | 0 => 0
  | m + 1 => cy i + total cy (i + 1) m

/-- The method of call `a + K` runs; the calls `a`, ..., `a + K - 1` are still to be compared; the clock is
about to begin, if `f`. -/
def driving (b : Bench X Y D M) (ya : Nat → Y) (f : Bool) (T K a : Nat) (m : Meth Y D) (g : G Y D M) (c : Nat) :
    BP Y D M where
  cur := some (0, .meth (a + K) m)
  batch := if f then [] else [.clock]
  ready := if f then .clock :: (List.range' T K).map .task else (List.range' T K).map .task
  clock := if f then .begin else .check
  n := T + K
  lv := fun t => if t = 0 then some .running
    else if T ≤ t ∧ t < T + K then some (.ready (.background (a + (t - T)) (ya (a + (t - T))) 0))
    else none
  g := g
  cycles := c
  ev := fun e => decide (1 ≤ e ∧ e < evNum b a b.pre.length)
  waiters := fun _ => []
  joiners := fun _ => []

theorem pending_calm {f : Bool} {T a : Nat} {z : Wait (Pc Y D) Unit} {td : Bool} {wt : List Nat} {g : G Y D M} {c : Nat} :
    To (sys b xs) (pending b ya f T 0 a z td wt g c) (calm T (evNum b a b.pre.length) z td wt g c) := by
  have hlv : (fun t => if t = 0 then some (.pend z)
      else if T ≤ t ∧ t < T then some (.ready (.background (a + (t - T)) (ya (a + (t - T))) 0)) else none) =
      (fun t => if t = 0 then some (.pend z) else none : Nat → Option (Status (Pc Y D) Unit)) := by
    funext t
    by_cases h : t = 0
    · simp [h]
    · simp only [h, if_false]; rw [if_neg (by omega)]
  unfold pending calm
  cases f with
  | false => exact To.eq (by simp only [List.range'_zero, List.map_nil, Nat.add_zero, Bool.false_eq_true, if_false, hlv])
  | true =>
    simp only [if_true, List.range'_zero, List.map_nil, Nat.add_zero, hlv]
    refine To.one (fun s h => newBatch h rfl rfl rfl) ?_
    refine To.one (fun s h => clockBegin h rfl rfl rfl) ?_
    exact To.one (fun s h => newBatch h rfl rfl rfl) To.refl

/-- The test is woken by the clock. -/
theorem calm_step {T a : Nat} {k : Meth Y D} {g : G Y D M} {c : Nat} :
    To (sys b xs) (calm T (evNum b a b.pre.length) (.ev 0 (.meth a k)) false [0] g c)
      (driving b ya false T 0 a k { g with dut := b.clk g.dut } (c + 1)) := by
  unfold calm
  refine To.one (fun s h => clockStep h rfl rfl rfl ?_ rfl rfl rfl (by simp) rfl) ?_
  · intro t
    by_cases h1 : t = 0 <;> simp [h1, busy]
  norm
  refine To.one (fun s h => newBatch h rfl rfl rfl) ?_
  norm
  refine To.one (fun s h => runEv (t := 0) (e := 0) (k := .meth a k) h rfl rfl (by simp [Status.finish])) ?_
  refine To.eq ?_
  unfold driving
  simp only [List.range'_zero, List.map_nil, Nat.add_zero]
  congr 1
  · funext t
    by_cases h1 : t = 0
    · subst h1; simp [upd]
    · have h2 : ¬ (T ≤ t ∧ t < T) := by omega
      simp [upd, h1, h2]
  · funext e
    by_cases h1 : e = 0
    · subst h1; simp [upd]
    · simp [upd, h1]

/-- What is claimed of a state of the run in which the calls from `a` on are still to be compared. -/
def Claim (b : Bench X Y D M) (xs : List X) (I : Nat → Nat → G Y D M → Prop) (ok : Nat → Bool) (d : D) (c a : Nat)
    (p : BP Y D M) : Prop :=
  ((∀ j, a ≤ j → j < xs.length → ok j = true) →
    ∃ q, To (sys b xs) p q ∧ Good b d c (I xs.length xs.length) q) ∧
  ((∃ j, a ≤ j ∧ j < xs.length ∧ ok j = false) → ∃ q, To (sys b xs) p q ∧ Bad q)

theorem Claim.to {I : Nat → Nat → G Y D M → Prop} {ok : Nat → Bool} {d : D} {c a : Nat} {p p' : BP Y D M}
    (h : To (sys b xs) p p') (h' : Claim b xs I ok d c a p') : Claim b xs I ok d c a p := by
  refine ⟨fun hg => ?_, fun hb => ?_⟩
  · obtain ⟨q, h1, h2⟩ := h'.1 hg
    exact ⟨q, h.trans h1, h2⟩
  · obtain ⟨q, h1, h2⟩ := h'.2 hb
    exact ⟨q, h.trans h1, h2⟩

theorem Claim.back {I : Nat → Nat → G Y D M → Prop} {ok : Nat → Bool} {d : D} {c a a' : Nat} {p : BP Y D M}
    (hok : ∀ j, a ≤ j → j < a' → ok j = true) (ha : a ≤ a') (h : Claim b xs I ok d c a' p) :
    Claim b xs I ok d c a p := by
  refine ⟨fun hg => h.1 fun j hj => hg j (by omega), fun ⟨j, h1, h2, h3⟩ => h.2 ⟨j, ?_, h2, h3⟩⟩
  apply Decidable.byContradiction
  intro hlt
  rw [hok j h1 (by omega)] at h3
  cases h3

/-- The background tasks run, and then the rest. -/
theorem claim_pending (h : Gh b xs xa ra) {I : Nat → Nat → G Y D M → Prop} {ok : Nat → Bool} {cy : Nat → Nat}
    (hM : Models b xs xa ra ya I ok cy) {f : Bool} {T K a a' : Nat} {z : Wait (Pc Y D) Unit} {td : Bool} {wt : List Nat}
    {g : G Y D M} {c : Nat} {d : D} {c' : Nat} (hT : 1 ≤ T) (ha : a + K ≤ a') (ha' : a' = xs.length)
    (hK' : K ≤ 1 ∨ b.pre.length = 0) (hcut : b.pre = [] → 0 < K → Cut xs.length cy a K) (hI : I a' a g)
    (next : ∀ T' g', 1 ≤ T' → g'.dut = g.dut → I a' (a + K) g' →
      Claim b xs I ok d c' (a + K) (calm T' (evNum b a b.pre.length + K * b.post.length) z td wt g' c)) :
    Claim b xs I ok d c' a (pending b ya f T K a z td wt g c) := by
  by_cases hK : K = 0
  · subst hK
    refine Claim.to pending_calm ?_
    have := next T g hT rfl hI
    simpa using this
  · have hdut : ∀ (l : List (Nat × Nat)) (g : G Y D M), (runItems b xa ra l g).dut = g.dut := by
      intro l
      induction l with
      | nil => intro g; rfl
      | cons q l ih => intro g; exact ih _
    obtain ⟨hI', hok⟩ := hM.flush ha (by omega) (.inl ha') hcut hI
    have key : (List.range' a K).all ok = true → To (sys b xs) (pending b ya f T K a z td wt g c)
        (calm (T + K + K * b.post.length) (evNum b a b.pre.length + K * b.post.length) z td wt
          (runItems b xa ra (srt ra (posts b a K)) g) c) := by
      intro hall
      rw [hall] at hok
      by_cases hp : b.post = []
      · have hr : runItems b xa ra (srt ra (posts b a K)) g = g := by
          have : posts b a K = [] := by unfold posts; simp [hp]
          rw [this]; rfl
        have hl0 : b.post.length = 0 := by rw [hp]; rfl
        have hf := flush_now (xs := xs) (ya := ya) hp (f := f) (a := a) (z := z) (td := td) (wt := wt) (g := g) (c := c) hT
          (by omega : 0 < K)
        rw [hr] at hok ⊢
        rw [hok] at hf
        rw [hl0, Nat.mul_zero, Nat.add_zero, Nat.add_zero]
        cases f with
        | false => exact hf
        | true => exact hf.trans (To.one (fun s h => newBatch h rfl rfl rfl) To.refl)
      · have hf := flush (ya := ya) h (List.length_pos_iff.2 hp) (f := f) (z := z) (td := td) (wt := wt) (g := g) (c := c) hT
          (by omega) (by omega : a + K ≤ xs.length) hK'
        rw [hok] at hf
        exact hf
    have key' : (List.range' a K).all ok = false → ∃ q, To (sys b xs) (pending b ya f T K a z td wt g c) q ∧ Bad q := by
      intro hall
      rw [hall] at hok
      by_cases hp : b.post = []
      · have hr : runItems b xa ra (srt ra (posts b a K)) g = g := by
          have : posts b a K = [] := by unfold posts; simp [hp]
          rw [this]; rfl
        have hf := flush_now (xs := xs) (ya := ya) hp (f := f) (a := a) (z := z) (td := td) (wt := wt) (g := g) (c := c) hT
          (by omega : 0 < K)
        rw [hr] at hok
        rw [hok] at hf
        cases f with
        | false =>
          obtain ⟨q, h1, h2, h3, h4, h5, h6⟩ := calm_bad (b := b) (xs := xs) (n := T + K)
            (E := evNum b a b.pre.length) (z := z) (td := td) (wt := wt) (g := g) (c := c)
          exact ⟨q, To.trans hf h1, h2, h3, h4, h5, h6⟩
        | true =>
          refine ⟨_, hf, rfl, rfl, rfl, rfl, ?_⟩
          intro r
          simp [calm]
      · have hf := flush (ya := ya) h (List.length_pos_iff.2 hp) (f := f) (z := z) (td := td) (wt := wt) (g := g) (c := c) hT
          (by omega) (by omega : a + K ≤ xs.length) hK'
        rw [hok] at hf
        obtain ⟨q, h1, h2, h3, h4, h5, h6⟩ := calm_bad (b := b) (xs := xs) (n := T + K + K * b.post.length)
          (E := evNum b a b.pre.length + K * b.post.length) (z := z) (td := td) (wt := wt)
          (g := runItems b xa ra (srt ra (posts b a K)) g) (c := c)
        exact ⟨q, To.trans hf h1, h2, h3, h4, h5, h6⟩
    cases hall : (List.range' a K).all ok with
    | true =>
      have hall' : ∀ j, a ≤ j → j < a + K → ok j = true := by
        intro j h1 h2
        exact List.all_eq_true.1 hall j (by rw [List.mem_range'_1]; omega)
      have hn := next (T + K + K * b.post.length) _ (by omega) (hdut _ g) hI'
      exact Claim.back hall' (by omega) (Claim.to (key hall) hn)
    | false =>
      refine ⟨fun hg => ?_, fun _ => key' hall⟩
      have : (List.range' a K).all ok = true := by
        rw [List.all_eq_true]
        intro j hj
        rw [List.mem_range'_1] at hj
        exact hg j hj.1 (by omega)
      rw [hall] at this
      cases this

theorem claim_end {I : Nat → Nat → G Y D M → Prop} {ok : Nat → Bool} {cy : Nat → Nat} (hM : Models b xs xa ra ya I ok cy) {T E : Nat}
    {g : G Y D M} {c : Nat} (hI : I xs.length xs.length g) :
    Claim b xs I ok g.dut c xs.length (calm T E (.final ()) true [0] g c) := by
  refine ⟨fun _ => ?_, fun ⟨j, h1, h2, _⟩ => absurd h1 (by omega)⟩
  obtain ⟨q, h1, h2, h3, h4, h5, h6, h7, h8⟩ := calm_end (b := b) (xs := xs) (n := T) (E := E) (g := g) (c := c)
  exact ⟨q, h1, h2, h3, h4, h5, h6, by rw [h7], h8, by rw [h7]; exact hM.dut _ hI⟩

/-- The method of a call: from its end to its beginning. -/
theorem claim_meth (h : Gh b xs xa ra) (hp0 : b.pre.length = 0)
    {I : Nat → Nat → G Y D M → Prop} {ok : Nat → Bool} {cy : Nat → Nat} (hM : Models b xs xa ra ya I ok cy)
    (hI' : ∀ a a' a'' g, I a a' g → I a'' a' g) {d d' : D} {y : Y} {i tl : Nat} (hi : i < xs.length)
    (hret : ∀ (f : Bool) (T K a : Nat) (g : G Y D M) (c : Nat), a + K = i → 1 ≤ T →
      (∀ j, a < j → j < i + 1 → cy j = 0) → I a a g → g.dut = d' →
      Claim b xs I ok d (c + tl) a (driving b ya f T K a (.ret y) g c)) (m : Meth Y D) :
    ∀ (f : Bool) (T K a : Nat) (g : G Y D M) (c cm : Nat), a + K = i → 1 ≤ T →
      (∀ j, a < j → j < i → cy j = 0) → (a < i → cm = cy i) → I a a g → runMeth b.clk m g.dut = (y, d', cm) →
      Claim b xs I ok d (c + cm + tl) a (driving b ya f T K a m g c) := by
  have hev : ∀ a K, evNum b a b.pre.length + K * b.post.length = evNum b (a + K) b.pre.length := by
    intro a K
    simp only [evNum, hp0]
    rw [Nat.add_mul]; simp; omega
  induction m with
  | ret y' =>
    intro f T K a g c cm ha hT hZ hcm hI hm
    obtain ⟨rfl, hdut, rfl⟩ : y' = y ∧ g.dut = d' ∧ 0 = cm := by
      simp only [runMeth, Prod.mk.injEq] at hm; exact hm
    refine hret f T K a g c ha hT (fun j h1 h2 => ?_) hI hdut
    by_cases e : j = i
    · subst e
      exact (hcm h1).symm
    · exact hZ j h1 (by omega)
  | read k ih =>
    intro f T K a g c cm ha hT hZ hcm hI hm
    refine Claim.to (p' := driving b ya f T K a (k g.dut) g c) ?_ (ih g.dut f T K a g c cm ha hT hZ hcm hI hm)
    exact To.one (fun s h => exComp (k' := .meth (a + K) (k g.dut)) (g := g) h rfl rfl) To.refl
  | write w k ih =>
    intro f T K a g c cm ha hT hZ hcm hI hm
    refine Claim.to (p' := driving b ya f T K a k { g with dut := w g.dut } c) ?_
      (ih f T K a { g with dut := w g.dut } c cm ha hT hZ hcm (hM.dut _ hI) hm)
    exact To.one (fun s h => exComp (k' := .meth (a + K) k) (g := { g with dut := w g.dut }) h rfl rfl) To.refl
  | step k ih =>
    intro f T K a g c cm ha hT hZ hcm hI hm
    obtain ⟨cm', rfl, hm'⟩ : ∃ cm', cm = cm' + 1 ∧ runMeth b.clk k (b.clk g.dut) = (y, d', cm') := by
      simp only [runMeth, Prod.mk.injEq] at hm
      exact ⟨_, hm.2.2.symm, by rw [← hm.1, ← hm.2.1]⟩
    have step : To (sys b xs) (driving b ya f T K a (.step k) g c)
        (pending b ya f T K a (.ev 0 (.meth (a + K) k)) false [0] g c) := by
      unfold driving
      refine To.one (fun s h => exWait (t := 0) (e := 0) (k' := .meth (a + K) k) h rfl rfl (by simp)) (To.eq ?_)
      unfold pending
      congr 1
      funext t
      by_cases h0 : t = 0
      · subst h0; simp [upd]
      · simp [upd, h0]
    refine Claim.to step (claim_pending h hM hT (a' := xs.length) (by omega) (by omega) (.inr hp0)
      (fun _ hK => ⟨fun j h1 h2 => hZ j h1 (by omega), .inr (by rw [ha, ← hcm (by omega)]; omega)⟩) (hI' _ _ _ _ hI) ?_)
    intro T' g' hT' hg' hI''
    rw [hev]
    refine Claim.to (calm_step (ya := ya)) ?_
    have := ih false T' 0 (a + K) { g' with dut := b.clk g'.dut } (c + 1) cm' (by omega) hT'
      (by omega) (by omega) (hM.dut _ (hI' _ _ _ _ hI'')) (by rw [hg']; exact hm')
    rwa [show c + 1 + cm' + tl = c + (cm' + 1) + tl by omega] at this

theorem driving_spawn {f : Bool} {T K a : Nat} {g : G Y D M} {c : Nat} (hT : 1 ≤ T) :
    To (sys b xs) (driving b ya f T K a (.ret (ya (a + K))) g c)
      { driving b ya f T (K + 1) a (.ret (ya (a + K))) g c with cur := some (0, .call (a + K + 1)) } := by
  unfold driving
  refine To.one (fun s h => exSpawn h rfl rfl) (To.eq ?_)
  congr 1
  · rw [List.range'_concat, List.map_append]; cases f <;> simp
  · funext t
    by_cases h0 : t = 0
    · subst h0
      simp only [upd, if_true]
      rw [if_neg (by omega)]
    · by_cases h1 : t = T + K
      · subst h1
        simp only [upd, h0, if_false, if_true]
        rw [if_pos (by omega), show T + K - T = K by omega]
      · simp only [upd, h0, h1, if_false]
        by_cases h2 : T ≤ t ∧ t < T + K
        · rw [if_pos h2, if_pos (by omega)]
        · rw [if_neg h2, if_neg (by omega)]

/-- All hooks run after the method. -/
theorem claim_driving (h : Gh b xs xa ra) (hpre : b.pre = [])
    {I : Nat → Nat → G Y D M → Prop} {ok : Nat → Bool} {cy : Nat → Nat} (hM : Models b xs xa ra ya I ok cy)
    (hI' : ∀ a a' a'' g, I a a' g → I a'' a' g) {da : Nat → D}
    (hd : ∀ i < xs.length, runMeth b.clk (b.method (xa i)) (da i) = (ya i, da (i + 1), cy i)) (r : Nat) :
    ∀ (i : Nat) (m : Meth Y D) (f : Bool) (T K a : Nat) (g : G Y D M) (c cm : Nat), i + r + 1 = xs.length → a + K = i → 1 ≤ T →
      (∀ j, a < j → j < i → cy j = 0) → (a < i → cm = cy i) → I a a g → runMeth b.clk m g.dut = (ya i, da (i + 1), cm) →
      Claim b xs I ok (da xs.length) (c + cm + total cy (i + 1) r) a (driving b ya f T K a m g c) := by
  have hp0 : b.pre.length = 0 := by rw [hpre]; rfl
  induction r with
  | zero =>
    intro i m f T K a g c cm hi ha hT hZ hcm hI hm
    refine claim_meth h hp0 hM hI' (by omega) ?_ m f T K a g c cm ha hT hZ hcm hI hm
    intro f T K a g c ha hT hZ' hI hdut
    subst ha
    refine Claim.to (driving_spawn hT) ?_
    have step : To (sys b xs)
        { driving b ya f T (K + 1) a (.ret (ya (a + K))) g c with cur := some (0, .call (a + K + 1)) }
        (pending b ya f T (K + 1) a (.final ()) true [0] g c) := by
      unfold driving
      refine To.one (fun s h => exRetMain h rfl (prog_end (by omega) _) (by cases f <;> simp) (by simp)) (To.eq ?_)
      unfold pending
      congr 1
      funext t
      by_cases h0 : t = 0
      · subst h0; simp [upd]
      · simp [upd, h0]
    refine Claim.to step (claim_pending h hM hT (a' := xs.length) (by omega) (by omega) (.inr hp0)
      (fun _ _ => ⟨fun j h1 h2 => hZ' j h1 (by omega), .inl (by omega)⟩) (hI' _ _ _ _ hI) ?_)
    intro T' g' _ hg' hI''
    have e : a + (K + 1) = xs.length := by omega
    rw [e] at hI'' ⊢
    have := claim_end (T := T') (E := evNum b a b.pre.length + (K + 1) * b.post.length) (c := c) hM hI''
    rw [hg', hdut, show a + K + 1 = xs.length by omega] at this
    simpa [total] using this
  | succ r ih =>
    intro i m f T K a g c cm hi ha hT hZ hcm hI hm
    refine claim_meth h hp0 hM hI' (by omega) ?_ m f T K a g c cm ha hT hZ hcm hI hm
    intro f T K a g c ha hT hZ' hI hdut
    subst ha
    refine Claim.to (driving_spawn hT) ?_
    refine Claim.to (call_direct h hpre (by omega) _ rfl) ?_
    have := ih (a + K + 1) (b.method (xa (a + K + 1))) f T (K + 1) a g c (cy (a + K + 1)) (by omega) (by omega) hT
      (fun j h1 h2 => hZ' j h1 (by omega)) (fun _ => rfl) hI
      (by rw [hdut]; exact hd _ (by omega))
    rw [show c + cy (a + K + 1) + total cy (a + K + 1 + 1) r = c + total cy (a + K + 1) (r + 1) by
      simp only [total]; omega] at this
    exact this

end Toffee.BenchMix
