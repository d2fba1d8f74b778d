import Verif.Lemmas.BenchMixOwn
import Verif.Lemmas.BenchMixShared
import Verif.Lemmas.LoopStutter

/-! C121: the verdict of a whole test run with hooks before and after the method. -/

namespace Toffee.BenchMix

open Toffee.Loop Toffee.LoopSym
open Toffee.Bench (runMeth runFor)

variable {X Y D M : Type}

/-! ### Specification: no event loop, no tasks -/

/-- The DUT after a list of calls. -/
def driven (method : X → Meth Y D) (clk : D → D) (d : D) (xs : List X) : D :=
  xs.foldl (fun d x => (runMeth clk (method x) d).2.1) d

/-- The clock cycles the calls take. -/
def cyclesOf (method : X → Meth Y D) (clk : D → D) : D → List X → Nat
  | _, [] => 0
  | d, x :: xs =>
    (runMeth clk (method x) d).2.2 + cyclesOf method clk (runMeth clk (method x) d).2.1 xs

/-- A reference model after the same calls. -/
def modelled (r : Ref X Y M) (s : M) (xs : List X) : M := xs.foldl (fun s x => (r.model s x).1) s

/-- On call number `i`, with the stimulus `x`, the method returns what the models return, as far as they
return something; model number `j` begins in the state `m j`. -/
def AgreeAt (method : X → Meth Y D) (clk : D → D) (eq : Y → Y → Bool) (rs : List (Ref X Y M)) (d : D) (m : Nat → M)
    (xs : List X) (i : Nat) (x : X) : Prop :=
  ∀ (j : Nat) (r : Ref X Y M), rs[j]? = some r → ∀ z, (r.model (modelled r (m j) (xs.take i)) x).2 = some z →
    eq (runMeth clk (method x) (driven method clk d (xs.take i))).1 z = true

/-- `toffee.run(test)` returns. -/
def Passes (s : St (Pc Y D) (G Y D M) Unit) : Prop :=
  halted s ∧ s.aborted = false ∧ s.st 0 = .done (some ())

/-- `toffee.run(test)` raises, while the test is still waiting. -/
def Fails (s : St (Pc Y D) (G Y D M) Unit) : Prop :=
  halted s ∧ s.aborted = true ∧ ∀ r, s.st 0 ≠ .done r

/-- A bench with the reference models `pre`, which run before the method, and `post`, which run after it;
they have nothing to do with one another. -/
def bench (method : X → Meth Y D) (clk : D → D) (eq : Y → Y → Bool) (pre post : List (Ref X Y M)) :
    Bench X Y D (Nat → M) where
  method := method
  clk := clk
  pre := pre.zipIdx.map fun q => own q.2 q.1
  post := (post.zipIdx pre.length).map fun q => own q.2 q.1
  eq := eq

/-! ### Proof -/

theorem no_sleep (b : Bench X Y D M) (xs : List X) (k : Pc Y D) (g : G Y D M) (k' : Pc Y D) :
    (sys b xs).prog k g ≠ .sleep k' := by
  cases k with
  | meth i p => cases p <;> simp [sys, prog]
  | join i ts => cases ts <;> simp [sys, prog]
  | bjoin i y ts => cases ts <;> simp [sys, prog]
  | call i | drive i | background i y j | hooks i j | gather i j ts | bgather i y j ts | compare i y =>
    simp only [sys, prog]; split <;> simp
  | _ => simp [sys, prog]

theorem start_nt (d : D) (m : M) : LoopStutter.NT (start (Y := Y) d m) := by
  intro t k
  show (if t = 0 then _ else _) ≠ _
  split <;> simp

/-- Whatever timers are due, the run gets where the run without due timers ends. -/
theorem reach (b : Bench X Y D M) (xs : List X) (d : D) (m : M) (due : Nat → List Nat) {q : BP Y D M}
    (h : To (sys b xs) (begin ⟨d, m, fun _ => []⟩) q) (h1 : q.cur = none) (h2 : q.batch = [])
    (h3 : q.stopping = true) :
    ∃ n, ∀ k, n ≤ k → S q (runFor (sys b xs) due (start d m) k) := by
  obtain ⟨n0, hn0⟩ := h _ (begin_start d m)
  obtain ⟨n, hn⟩ := LoopStutter.lift_halted (sys b xs) (no_sleep b xs) due (start_nt d m) n0
    ⟨by rw [hn0.stopping, h3], by rw [hn0.cur, h1], by rw [hn0.batch, h2]⟩
  refine ⟨n, fun k hk => ?_⟩
  rw [LoopStutter.stay _ _ _ n (by
    rw [hn]
    exact ⟨by rw [hn0.stopping, h3], by rw [hn0.cur, h1], by rw [hn0.batch, h2]⟩) k hk, hn]
  exact hn0

theorem Good.passes {b : Bench X Y D M} {d : D} {c : Nat} {I : G Y D M → Prop} {q : BP Y D M} (h : Good b d c I q)
    {s : St (Pc Y D) (G Y D M) Unit} (hs : S q s) :
    Passes s ∧ s.cycles = c + 2 ∧ s.g.dut = b.clk (b.clk d) ∧ I s.g := by
  refine ⟨⟨⟨by rw [hs.stopping, h.stopping], by rw [hs.cur, h.cur], by rw [hs.batch, h.batch]⟩,
    by rw [hs.aborted, h.aborted], ?_⟩, by rw [hs.cycles, h.cycles], by rw [hs.g, h.dut], by rw [hs.g]; exact h.inv⟩
  have := hs.st 0
  rw [h.main] at this
  exact this

theorem Bad.fails {q : BP Y D M} (h : Bad q) {s : St (Pc Y D) (G Y D M) Unit} (hs : S q s) : Fails s := by
  refine ⟨⟨by rw [hs.stopping, h.stopping], by rw [hs.cur, h.cur], by rw [hs.batch, h.batch]⟩,
    by rw [hs.aborted, h.aborted], ?_⟩
  intro r hr
  have h0 := hs.st 0
  rw [hr] at h0
  cases hl : q.lv 0 with
  | none => exact (h.main none).2 hl
  | some y =>
    rw [hl] at h0
    exact (h.main r).1 (by rw [hl]; exact congrArg some h0.symm)

/-- The stimulus of call `i`. -/
def xOf (x0 : X) (xs : List X) (i : Nat) : X := (xs[i]?).getD x0

/-- The DUT before call `i`. -/
def dOf (method : X → Meth Y D) (clk : D → D) (d : D) (xa : Nat → X) : Nat → D
  | 0 => d
  | i + 1 => (runMeth clk (method (xa i)) (dOf method clk d xa i)).2.1

theorem take_succ_x {x0 : X} {xs : List X} {i : Nat} (hi : i < xs.length) :
    xs.take (i + 1) = xs.take i ++ [xOf x0 xs i] := by
  rw [List.take_add_one]
  simp [xOf, hi]

theorem dOf_eq {method : X → Meth Y D} {clk : D → D} {d : D} {x0 : X} {xs : List X} (i : Nat) (hi : i ≤ xs.length) :
    dOf method clk d (xOf x0 xs) i = driven method clk d (xs.take i) := by
  induction i with
  | zero => rfl
  | succ i ih =>
    rw [dOf, ih (by omega), take_succ_x (x0 := x0) (by omega)]
    simp [driven]

theorem stOf_eq {rs : Nat → Ref X Y M} {m : Nat → M} {x0 : X} {xs : List X} (j i : Nat) (hi : i ≤ xs.length) :
    stOf (xOf x0 xs) rs m j i = modelled (rs j) (m j) (xs.take i) := by
  induction i with
  | zero => rfl
  | succ i ih =>
    rw [stOf, ih (by omega), take_succ_x (x0 := x0) (by omega)]
    simp [modelled]

theorem total_eq {method : X → Meth Y D} {clk : D → D} {d : D} {x0 : X} {xs : List X} (r : Nat) : ∀ i, i + r = xs.length →
    total (fun i => (runMeth clk (method (xOf x0 xs i)) (dOf method clk d (xOf x0 xs) i)).2.2) i r =
      cyclesOf method clk (dOf method clk d (xOf x0 xs) i) (xs.drop i) := by
  induction r with
  | zero => intro i hi; rw [List.drop_eq_nil_of_le (by omega)]; rfl
  | succ r ih =>
    intro i hi
    have : xs.drop i = xOf x0 xs i :: xs.drop (i + 1) := by
      rw [List.drop_eq_getElem_cons (by omega)]
      simp [xOf, show i < xs.length by omega]
    rw [total, ih (i + 1) (by omega), this]
    rfl

/-- The reference model number `j`. -/
def rOf (rs : List (Ref X Y M)) (j : Nat) : Ref X Y M := (rs[j]?).getD ⟨fun m _ => (m, none), 0⟩

theorem bench_gh (method : X → Meth Y D) (clk : D → D) (eq : Y → Y → Bool) (pre post : List (Ref X Y M)) (x0 : X)
    (xs : List X) :
    Gh (bench method clk eq pre post) xs (xOf x0 xs) fun j => own j (rOf (pre ++ post) j) where
  x := fun i hi => by simp [xOf, hi]
  pre := by
    intro j hj
    simp only [bench, List.length_map, List.length_zipIdx] at hj
    have : (pre ++ post)[j]? = some pre[j] := by rw [List.getElem?_append_left hj]; simp [hj]
    simp [bench, rOf, this, hj]
  post := by
    intro j hj
    simp only [bench, List.length_map, List.length_zipIdx] at hj
    simp [bench, rOf, hj]

/-- The whole run, seen from its specification. -/
theorem verdict (method : X → Meth Y D) (clk : D → D) (eq : Y → Y → Bool) (pre post : List (Ref X Y M)) (xs : List X)
    (d : D) (m : Nat → M) :
    ((∀ i x, xs[i]? = some x → AgreeAt method clk eq (pre ++ post) d m xs i x) →
      ∃ q, To (sys (bench method clk eq pre post) xs) (begin ⟨d, m, fun _ => []⟩) q ∧
        Good (bench method clk eq pre post) (driven method clk d xs) (cyclesOf method clk d xs)
          (fun g => ∀ j r, (pre ++ post)[j]? = some r → g.ref j = modelled r (m j) xs) q) ∧
    ((∃ i x, xs[i]? = some x ∧ ¬ AgreeAt method clk eq (pre ++ post) d m xs i x) →
      ∃ q, To (sys (bench method clk eq pre post) xs) (begin ⟨d, m, fun _ => []⟩) q ∧ Bad q) := by
  cases hxs : xs with
  | nil =>
    refine ⟨fun _ => ?_, fun ⟨i, x, h, _⟩ => by simp at h⟩
    obtain ⟨q, h1, h2, h3, h4, h5, h6, h7, h8⟩ := calm_end (b := bench method clk eq pre post) (xs := ([] : List X))
      (n := 1) (E := 1) (g := ⟨d, m, fun _ => []⟩) (c := 0)
    refine ⟨q, (begin_calm rfl).trans h1, h2, h3, h4, h5, h6, by rw [h7]; rfl, h8, ?_⟩
    intro j r _
    rw [h7]; rfl
  | cons x0 xs' =>
    rw [← hxs]
    have hlen : (bench method clk eq pre post).pre.length + (bench method clk eq pre post).post.length =
        (pre ++ post).length := by simp [bench]
    have hget : ∀ j r, (pre ++ post)[j]? = some r → rOf (pre ++ post) j = r := by
      intro j r h; simp [rOf, h]
    have hC := claim_begin (b := bench method clk eq pre post) (g := ⟨d, m, fun _ => []⟩)
      (ya := fun i => (runMeth clk (method (xOf x0 xs i)) (dOf method clk d (xOf x0 xs) i)).1)
      (da := dOf method clk d (xOf x0 xs))
      (cy := fun i => (runMeth clk (method (xOf x0 xs i)) (dOf method clk d (xOf x0 xs) i)).2.2)
      (bench_gh method clk eq pre post x0 xs) (models_own (m := m) _)
      (by
        intro hp a a' a'' g h
        refine h.congr fun j hj => ?_
        rw [hp]; rfl)
      (fun i hi => rfl)
      ⟨fun j hj => by simp [stOf], fun i z => by simp⟩ rfl
    rw [total_eq _ 0 (by omega)] at hC
    rw [dOf_eq _ (Nat.le_refl _), List.take_length] at hC
    have hok : ∀ j, j < xs.length →
        (okAt (bench method clk eq pre post) (xOf x0 xs) (rOf (pre ++ post)) m
          (fun i => (runMeth clk (method (xOf x0 xs i)) (dOf method clk d (xOf x0 xs) i)).1) j = true ↔
        ∀ x, xs[j]? = some x → AgreeAt method clk eq (pre ++ post) d m xs j x) := by
      intro i hi
      have hx : xs[i]? = some (xOf x0 xs i) := by simp [xOf, hi]
      unfold okAt
      rw [List.all_eq_true, hlen]
      constructor
      · intro h x hx' j r hr z hz
        rw [hx] at hx'
        cases hx'
        have := h j (List.mem_range.2 (List.getElem?_eq_some_iff.1 hr).1)
        rw [outOf, stOf_eq _ _ (by omega), hget j r hr, hz] at this
        rw [← dOf_eq (x0 := x0) _ (by omega)]
        exact this
      · intro h j hj
        rw [List.mem_range] at hj
        have hr : (pre ++ post)[j]? = some (rOf (pre ++ post) j) := by
          simp only [rOf, List.getElem?_eq_getElem hj, Option.getD_some]
        cases ho : outOf (xOf x0 xs) (rOf (pre ++ post)) m j i with
        | none => rfl
        | some z =>
          rw [outOf, stOf_eq _ _ (by omega)] at ho
          have := h _ hx j _ hr z ho
          rw [← dOf_eq (x0 := x0) _ (by omega)] at this
          exact this
    refine ⟨fun h => ?_, fun ⟨i, x, h1, h2⟩ => ?_⟩
    · obtain ⟨q, h1, h2⟩ := hC.1 fun j _ hj => (hok j hj).2 fun x hx => h j x hx
      refine ⟨q, h1, { h2 with inv := ?_ }⟩
      intro j r hr
      have := h2.inv.ref j (by rw [hlen]; exact (List.getElem?_eq_some_iff.1 hr).1)
      rw [this]
      simp only [ite_self]
      rw [stOf_eq _ _ (Nat.le_refl _), hget j r hr, List.take_length]
    · have hi : i < xs.length := (List.getElem?_eq_some_iff.1 h1).1
      refine hC.2 ⟨i, Nat.zero_le i, hi, ?_⟩
      rw [Bool.eq_false_iff]
      intro h
      exact h2 ((hok i hi).1 h x h1)

/-! ### Theorems -/

/-- **C121.** If DUT and reference models agree on every call, the run comes to its end and passes, whatever
the timers do: the DUT has got the clock cycles of the calls, and two more at the end; every reference model,
whether it runs before or after the method, has seen every call once, in order. -/
theorem C121_pass (method : X → Meth Y D) (clk : D → D) (eq : Y → Y → Bool) (pre post : List (Ref X Y M))
    (xs : List X) (d : D) (m : Nat → M) (due : Nat → List Nat)
    (h : ∀ i x, xs[i]? = some x → AgreeAt method clk eq (pre ++ post) d m xs i x) :
    ∃ n, ∀ k, n ≤ k →
      Passes (runFor (sys (bench method clk eq pre post) xs) due (start d m) k) ∧
      (runFor (sys (bench method clk eq pre post) xs) due (start d m) k).cycles = cyclesOf method clk d xs + 2 ∧
      (runFor (sys (bench method clk eq pre post) xs) due (start d m) k).g.dut = clk (clk (driven method clk d xs)) ∧
      ∀ j r, (pre ++ post)[j]? = some r →
        (runFor (sys (bench method clk eq pre post) xs) due (start d m) k).g.ref j = modelled r (m j) xs := by
  obtain ⟨q, hq, hg⟩ := (verdict method clk eq pre post xs d m).1 h
  obtain ⟨n, hn⟩ := reach _ xs d m due hq hg.cur hg.batch hg.stopping
  exact ⟨n, fun k hk => hg.passes (hn k hk)⟩

/-- **C121.** If they disagree on some call, be it the last one, the run comes to its end and fails, whatever
the timers do. -/
theorem C121_fail (method : X → Meth Y D) (clk : D → D) (eq : Y → Y → Bool) (pre post : List (Ref X Y M))
    (xs : List X) (d : D) (m : Nat → M) (due : Nat → List Nat) (i : Nat) (x : X) (hx : xs[i]? = some x)
    (h : ¬ AgreeAt method clk eq (pre ++ post) d m xs i x) :
    ∃ n, ∀ k, n ≤ k → Fails (runFor (sys (bench method clk eq pre post) xs) due (start d m) k) := by
  obtain ⟨q, hq, hg⟩ := (verdict method clk eq pre post xs d m).2 ⟨i, x, hx, h⟩
  obtain ⟨n, hn⟩ := reach _ xs d m due hq hg.cur hg.batch hg.stopping
  exact ⟨n, fun k hk => hg.fails (hn k hk)⟩

/-- **C121.** The verdict is right: the run passes if and only if on every call every model, fed with the
calls in their order, returns nothing or what the method returns.  Whether a model runs before or after the
method plays no part, nor do the priorities. -/
theorem C121_verdict (method : X → Meth Y D) (clk : D → D) (eq : Y → Y → Bool) (pre post : List (Ref X Y M))
    (xs : List X) (d : D) (m : Nat → M) (due : Nat → List Nat) :
    (∃ n, Passes (runFor (sys (bench method clk eq pre post) xs) due (start d m) n)) ↔
      ∀ i x, xs[i]? = some x → AgreeAt method clk eq (pre ++ post) d m xs i x := by
  constructor
  · rintro ⟨n, hn⟩ i x hx
    apply Classical.byContradiction
    intro h
    obtain ⟨n', hn'⟩ := C121_fail method clk eq pre post xs d m due i x hx h
    have h1 := hn' (max n n') (by omega)
    rw [LoopStutter.stay _ _ _ n hn.1 _ (by omega)] at h1
    have := h1.2.1
    rw [hn.2.1] at this
    cases this
  · intro h
    obtain ⟨n, hn⟩ := C121_pass method clk eq pre post xs d m due h
    exact ⟨n, (hn n (Nat.le_refl n)).1⟩

/-! ### Hooks that share their state -/

/-- The hooks that run together, each with the number of its call and the stimulus, by priority: those before
the method of call `c` and those after the method of the call before. -/
def turn (b : Bench X Y D M) (xs : List X) (c : Nat) : List (Nat × X × Ref X Y M) :=
  ((match xs[c]? with
    | some x => b.pre.map fun r => (c, x, r)
    | none => []) ++
    match c with
    | 0 => []
    | c' + 1 =>
      match xs[c']? with
      | some x => b.post.map fun r => (c', x, r)
      | none => []).mergeSort fun q q' => decide (q.2.2.prio ≤ q'.2.2.prio)

/-- Hooks run one after the other; what they return is noted with the number of the call. -/
def consult (s : M × List (Nat × Option Y)) (l : List (Nat × X × Ref X Y M)) : M × List (Nat × Option Y) :=
  l.foldl (fun s q => ((q.2.2.model s.1 q.2.1).1, s.2 ++ [(q.1, (q.2.2.model s.1 q.2.1).2)])) s

/-- All hooks of all calls. -/
def consulted (b : Bench X Y D M) (xs : List X) (m : M) : M × List (Nat × Option Y) :=
  consult (m, []) ((List.range (xs.length + 1)).flatMap (turn b xs))

/-- On call number `i` the method returns what the hooks return, as far as they return something. -/
def AgreeIn (b : Bench X Y D M) (d : D) (m : M) (xs : List X) (i : Nat) (x : X) : Prop :=
  ∀ z, (i, some z) ∈ (consulted b xs m).2 →
    b.eq (runMeth b.clk (b.method x) (driven b.method b.clk d (xs.take i))).1 z = true

section

variable {b : Bench X Y D M} {xs : List X} {xa : Nat → X} {ra : Nat → Ref X Y M}

theorem map_range_pre (h : Gh b xs xa ra) {β : Type} (f : Ref X Y M → β) :
    (List.range' 0 b.pre.length).map (fun j => f (ra j)) = b.pre.map f := by
  apply List.ext_getElem?
  intro j
  by_cases hj : j < b.pre.length
  · rw [List.getElem?_map, List.getElem?_map, h.pre j hj, List.getElem?_range' hj]
    simp
  · rw [List.getElem?_eq_none (by simp; omega), List.getElem?_eq_none (by simp; omega)]

theorem map_range_post (h : Gh b xs xa ra) {β : Type} (f : Ref X Y M → β) :
    (List.range' b.pre.length b.post.length).map (fun j => f (ra j)) = b.post.map f := by
  apply List.ext_getElem?
  intro j
  by_cases hj : j < b.post.length
  · rw [List.getElem?_map, List.getElem?_map, h.post j hj, List.getElem?_range' hj]
    simp
  · rw [List.getElem?_eq_none (by simp; omega), List.getElem?_eq_none (by simp; omega)]

theorem srt_turn (h : Gh b xs xa ra) {c : Nat} (hc : c ≤ xs.length) :
    (srt ra (items b xs.length c)).map (fun q => (q.1, xa q.1, ra q.2)) = turn b xs c := by
  have h1 := sorted_map (fun q : Nat × Nat => (q.1, xa q.1, ra q.2))
    ((items b xs.length c).map fun q => (q, (ra q.2).prio))
  have h2 := sorted_mergeSort (fun q : Nat × X × Ref X Y M => q.2.2.prio)
    ((items b xs.length c).map fun q => (q.1, xa q.1, ra q.2))
  rw [List.map_map] at h1 h2
  have h3 := congrArg (List.map Prod.fst) (h1.symm.trans h2)
  rw [List.map_map, List.map_map] at h3
  unfold srt
  rw [List.map_map]
  refine h3.trans ?_
  rw [show (Prod.fst ∘ fun a : Nat × X × Ref X Y M => (a, a.2.2.prio)) = id from rfl, List.map_id]
  unfold turn
  congr 1
  unfold items
  rw [List.map_append]
  congr 1
  · by_cases hc' : c < xs.length
    · rw [if_pos hc', h.x c hc', List.map_map]
      exact map_range_pre h fun r => (c, xa c, r)
    · rw [if_neg hc', List.getElem?_eq_none (by omega)]; rfl
  · cases c with
    | zero => rfl
    | succ c =>
      simp only [h.x c (by omega)]
      rw [if_neg (by omega), Nat.add_sub_cancel, posts_succ, posts_zero, List.append_nil, List.map_map]
      exact map_range_post h fun r => (c, xa c, r)

/-- The state of the run and that of the specification. -/
def Like (g : G Y D M) (s : M × List (Nat × Option Y)) : Prop :=
  g.ref = s.1 ∧ ∀ i, g.results i = (s.2.filter fun q => q.1 == i).map Prod.snd

theorem Like.items (l : List (Nat × Nat)) : ∀ {g : G Y D M} {s : M × List (Nat × Option Y)}, Like g s →
    Like (runItems b xa ra l g) (consult s (l.map fun q => (q.1, xa q.1, ra q.2))) := by
  induction l with
  | nil => intro g s h; exact h
  | cons q l ih =>
    intro g s h
    refine ih (s := (((ra q.2).model s.1 (xa q.1)).1, s.2 ++ [(q.1, ((ra q.2).model s.1 (xa q.1)).2)])) ⟨?_, ?_⟩
    · simp only [hook, h.1]
    · intro i
      simp only [hook, h.1, upd, List.filter_append, List.map_append]
      by_cases e : i = q.1
      · subst e
        simp [h.2]
      · have : (q.1 == i) = false := by simpa using fun h => e h.symm
        simp [e, h.2, this]

theorem like_gs (h : Gh b xs xa ra) (d : D) (m : M) (c : Nat) (hc : c ≤ xs.length + 1) :
    Like (gs b xa ra xs.length ⟨d, m, fun _ => []⟩ c) (consult (m, []) ((List.range c).flatMap (turn b xs))) := by
  induction c with
  | zero => exact ⟨rfl, fun i => rfl⟩
  | succ c ih =>
    rw [List.range_succ, List.flatMap_append, List.flatMap_singleton]
    unfold consult
    rw [List.foldl_append, gs, ← srt_turn h (by omega)]
    exact (ih (by omega)).items _

end

/-- The whole run, seen from its specification. -/
theorem verdict_shared (b : Bench X Y D M) (hb : b.pre ≠ []) (xs : List X) (d : D) (m : M) :
    ((∀ i x, xs[i]? = some x → AgreeIn b d m xs i x) →
      ∃ q, To (sys b xs) (begin ⟨d, m, fun _ => []⟩) q ∧
        Good b (driven b.method b.clk d xs) (cyclesOf b.method b.clk d xs)
          (fun g => g.ref = (consulted b xs m).1) q) ∧
    ((∃ i x, xs[i]? = some x ∧ ¬ AgreeIn b d m xs i x) →
      ∃ q, To (sys b xs) (begin ⟨d, m, fun _ => []⟩) q ∧ Bad q) := by
  cases hxs : xs with
  | nil =>
    refine ⟨fun _ => ?_, fun ⟨i, x, h, _⟩ => by simp at h⟩
    obtain ⟨q, h1, h2, h3, h4, h5, h6, h7, h8⟩ := calm_end (b := b) (xs := ([] : List X))
      (n := 1) (E := 1) (g := ⟨d, m, fun _ => []⟩) (c := 0)
    refine ⟨q, (begin_calm rfl).trans h1, h2, h3, h4, h5, h6, by rw [h7]; rfl, h8, ?_⟩
    rw [h7]
    simp [consulted, consult, turn]
  | cons x0 xs' =>
    rw [← hxs]
    obtain ⟨ra, h⟩ : ∃ ra, Gh b xs (xOf x0 xs) ra := by
      refine ⟨fun j => rOf (b.pre ++ b.post) j, ?_, ?_, ?_⟩
      · intro i hi; simp [xOf, hi]
      · intro j hj
        have : (b.pre ++ b.post)[j]? = some b.pre[j] := by rw [List.getElem?_append_left hj]; simp [hj]
        simp [rOf, this, hj]
      · intro j hj
        simp [rOf, hj]
    have hC := claim_begin (b := b) (g := ⟨d, m, fun _ => []⟩)
      (ya := fun i => (runMeth b.clk (b.method (xOf x0 xs i)) (dOf b.method b.clk d (xOf x0 xs) i)).1)
      (da := dOf b.method b.clk d (xOf x0 xs))
      (cy := fun i => (runMeth b.clk (b.method (xOf x0 xs i)) (dOf b.method b.clk d (xOf x0 xs) i)).2.2)
      h (models_shared ⟨d, m, fun _ => []⟩ _ (by rw [hxs]; simp))
      (fun hp => absurd hp hb)
      (fun i hi => rfl)
      (.inr ⟨rfl, by rw [if_neg (by rw [hxs]; simp)]; exact ⟨rfl, rfl⟩⟩) rfl
    rw [total_eq _ 0 (by omega)] at hC
    rw [dOf_eq _ (Nat.le_refl _), List.take_length] at hC
    have hL := like_gs h d m (xs.length + 1) (Nat.le_refl _)
    have hok : ∀ j, j < xs.length →
        (okIn b (fun i => (runMeth b.clk (b.method (xOf x0 xs i)) (dOf b.method b.clk d (xOf x0 xs) i)).1)
          (gs b (xOf x0 xs) ra xs.length ⟨d, m, fun _ => []⟩ (xs.length + 1)) j = true ↔
        ∀ x, xs[j]? = some x → AgreeIn b d m xs j x) := by
      intro i hi
      have hx : xs[i]? = some (xOf x0 xs i) := by simp [xOf, hi]
      unfold okIn
      rw [List.all_eq_true, hL.2]
      constructor
      · intro h x hx' z hz
        rw [hx] at hx'
        cases hx'
        have := h (some z) (List.mem_map.2 ⟨(i, some z), List.mem_filter.2 ⟨hz, by simp⟩, rfl⟩)
        rw [← dOf_eq (x0 := x0) _ (by omega)]
        exact this
      · intro h o ho
        cases o with
        | none => rfl
        | some z =>
          obtain ⟨⟨i', o⟩, hm, ho'⟩ := List.mem_map.1 ho
          obtain ⟨hm, hi'⟩ := List.mem_filter.1 hm
          have e : i' = i := by simpa using hi'
          have e' : o = some z := ho'
          rw [e, e'] at hm
          have := h _ hx z hm
          rw [← dOf_eq (x0 := x0) _ (by omega)] at this
          exact this
    refine ⟨fun h => ?_, fun ⟨i, x, h1, h2⟩ => ?_⟩
    · obtain ⟨q, h1, h2⟩ := hC.1 fun j _ hj => (hok j hj).2 fun x hx => h j x hx
      refine ⟨q, h1, { h2 with inv := ?_ }⟩
      rcases h2.inv with ⟨h3, _⟩ | ⟨_, h3⟩
      · omega
      · rw [if_pos rfl] at h3
        exact h3.1.trans hL.1
    · have hi : i < xs.length := (List.getElem?_eq_some_iff.1 h1).1
      refine hC.2 ⟨i, Nat.zero_le i, hi, ?_⟩
      rw [Bool.eq_false_iff]
      intro h
      exact h2 ((hok i hi).1 h x h1)

/-- **C121.** If the hooks share their state and one of them runs before the method, then they run in this
order: with the hooks before the method of a call run those after the method of the call before, all of them by
priority, among equals those before the method first.  If all results agree, the run passes and leaves the state this
order gives. -/
theorem C121_shared_pass (b : Bench X Y D M) (hb : b.pre ≠ []) (xs : List X) (d : D) (m : M) (due : Nat → List Nat)
    (h : ∀ i x, xs[i]? = some x → AgreeIn b d m xs i x) :
    ∃ n, ∀ k, n ≤ k → Passes (runFor (sys b xs) due (start d m) k) ∧
      (runFor (sys b xs) due (start d m) k).cycles = cyclesOf b.method b.clk d xs + 2 ∧
      (runFor (sys b xs) due (start d m) k).g.dut = b.clk (b.clk (driven b.method b.clk d xs)) ∧
      (runFor (sys b xs) due (start d m) k).g.ref = (consulted b xs m).1 := by
  obtain ⟨q, hq, hg⟩ := (verdict_shared b hb xs d m).1 h
  obtain ⟨n, hn⟩ := reach _ xs d m due hq hg.cur hg.batch hg.stopping
  exact ⟨n, fun k hk => hg.passes (hn k hk)⟩

/-- **C121.** If some result does not agree, the run fails. -/
theorem C121_shared_fail (b : Bench X Y D M) (hb : b.pre ≠ []) (xs : List X) (d : D) (m : M) (due : Nat → List Nat)
    (i : Nat) (x : X) (hx : xs[i]? = some x) (h : ¬ AgreeIn b d m xs i x) :
    ∃ n, ∀ k, n ≤ k → Fails (runFor (sys b xs) due (start d m) k) := by
  obtain ⟨q, hq, hg⟩ := (verdict_shared b hb xs d m).2 ⟨i, x, hx, h⟩
  obtain ⟨n, hn⟩ := reach _ xs d m due hq hg.cur hg.batch hg.stopping
  exact ⟨n, fun k hk => hg.fails (hn k hk)⟩

/-- **C121.** The verdict for hooks that share their state, one of them running before the method. -/
theorem C121_shared_verdict (b : Bench X Y D M) (hb : b.pre ≠ []) (xs : List X) (d : D) (m : M)
    (due : Nat → List Nat) :
    (∃ n, Passes (runFor (sys b xs) due (start d m) n)) ↔ ∀ i x, xs[i]? = some x → AgreeIn b d m xs i x := by
  constructor
  · rintro ⟨n, hn⟩ i x hx
    apply Classical.byContradiction
    intro h
    obtain ⟨n', hn'⟩ := C121_shared_fail b hb xs d m due i x hx h
    have h1 := hn' (max n n') (by omega)
    rw [LoopStutter.stay _ _ _ n hn.1 _ (by omega)] at h1
    have := h1.2.1
    rw [hn.2.1] at this
    cases this
  · intro h
    obtain ⟨n, hn⟩ := C121_shared_pass b hb xs d m due h
    exact ⟨n, (hn n (Nat.le_refl n)).1⟩

/-! ### What does depend on the order -/

/-- A hook that notes its calls in a log that all hooks share: which hook it is and which call. -/
def note (k p : Nat) : Ref Nat Nat (List (Nat × Nat)) := ⟨fun m x => (m ++ [(k, x)], none), p⟩

/-- One model with a hook before the method (number 0) and one after it (number 1), of the priorities `p`
and `p'`; the method takes one clock cycle. -/
def logged (p p' : Nat) : Bench Nat Nat Nat (List (Nat × Nat)) where
  method := fun x => .step (.ret x)
  clk := fun d => d + 1
  pre := [note 0 p]
  post := [note 1 p']
  eq := fun y z => y == z

set_option maxRecDepth 20000 in
/-- **C121, violated.** That the hooks of one call are run before those of the next one is not so: a hook after
the method is run only when the next call asks for its own hook before the method, and if that one has the
same priority, or a smaller one, it comes first. -/
theorem C121_order_violated :
    (Passes (runFor (sys (logged 99 99) [7, 8]) (fun _ => []) (start 0 []) 200) ∧
      (runFor (sys (logged 99 99) [7, 8]) (fun _ => []) (start 0 []) 200).g.ref = [(0, 7), (0, 8), (1, 7), (1, 8)]) ∧
    (runFor (sys (logged 99 98) [7, 8]) (fun _ => []) (start 0 []) 200).g.ref = [(0, 7), (1, 7), (0, 8), (1, 8)] := by
  refine ⟨⟨⟨⟨?_, ?_, ?_⟩, ?_, ?_⟩, ?_⟩, ?_⟩
  · decide +kernel
  · decide +kernel
  · decide +kernel
  · decide +kernel
  · rfl
  · decide +kernel
  · decide +kernel

/-- A model of a sum: its hook before the method adds, its hook after the method tells the sum.  The DUT adds in one
clock cycle. -/
def summed (p p' : Nat) : Bench Nat Nat (Nat × Nat) Nat where
  method := fun x => .write (fun d => (x, d.2)) (.step (.read fun d => .ret d.2))
  clk := fun d => (0, d.2 + d.1)
  pre := [⟨fun m x => (m + x, none), p⟩]
  post := [⟨fun m _ => (m, some m), p'⟩]
  eq := fun y z => y == z

theorem consulted_summed (p p' : Nat) (m x y : Nat) : consulted (summed p p') [x, y] m =
    (m + x + y, [(0, none)] ++ (if p ≤ p' then [(1, none), (0, some (m + x + y))] else [(0, some (m + x)), (1, none)]) ++
      [(1, some (m + x + y))]) := by
  have h0 : turn (summed p p') [x, y] 0 = [(0, x, ⟨fun m x => (m + x, none), p⟩)] := by
    simp [turn, summed]
  have h1 : turn (summed p p') [x, y] 1 = if p ≤ p' then [(1, y, ⟨fun m x => (m + x, none), p⟩), (0, x, ⟨fun m _ => (m, some m), p'⟩)]
      else [(0, x, ⟨fun m _ => (m, some m), p'⟩), (1, y, ⟨fun m x => (m + x, none), p⟩)] := by
    simp [turn, summed, List.mergeSort, List.MergeSort.Internal.splitInTwo]
    by_cases h : p ≤ p' <;> simp [h]
  have h2 : turn (summed p p') [x, y] 2 = [(1, y, ⟨fun m _ => (m, some m), p'⟩)] := by
    simp [turn, summed]
  show consult _ ([0, 1, 2].flatMap _) = _
  simp only [List.flatMap_cons, List.flatMap_nil, h0, h1, h2]
  by_cases h : p ≤ p' <;> simp [h, consult]

/-- **C121, violated.** That a right DUT passes is not so if the hooks share their state: when the hook after the
method has the same priority as the one before it, it tells the sum of a call only when the next call has been
added, and the run fails; with a smaller priority, the run passes. -/
theorem C121_false_alarm_violated (due : Nat → List Nat) :
    (∃ n, ∀ k, n ≤ k → Fails (runFor (sys (summed 99 99) [3, 4]) due (start (0, 0) 0) k)) ∧
    ∃ n, ∀ k, n ≤ k → Passes (runFor (sys (summed 99 98) [3, 4]) due (start (0, 0) 0) k) := by
  constructor
  · refine C121_shared_fail (summed 99 99) (by simp [summed]) [3, 4] (0, 0) 0 due 0 3 rfl fun h => ?_
    exact absurd (h 7 (by rw [consulted_summed]; simp)) (by decide)
  · obtain ⟨n, hn⟩ := C121_shared_pass (summed 99 98) (by simp [summed]) [3, 4] (0, 0) 0 due (by
      intro i x hx z hz
      rw [consulted_summed] at hz
      match i, hx with
      | 0, hx =>
        cases hx
        simp at hz
        subst hz
        rfl
      | 1, hx =>
        cases hx
        simp at hz
        subst hz
        rfl)
    exact ⟨n, fun k hk => (hn k hk).1⟩

/-! ### Examples: an accumulator that adds its input, two clock cycles after it was set; `pre` a model of the
sum, `post` one of its parity that is silent on 0 -/

def accMethod (x : Nat) : Meth Nat (Nat × Nat) :=
  .write (fun d => (x, d.2)) (.step (.write (fun d => (0, d.2)) (.step (.read fun d => .ret d.2))))

/-- The sum is not longer than three bits. -/
def accClk (d : Nat × Nat) : Nat × Nat := (d.1, (d.2 + d.1) % 8)

def accEq (y z : Nat) : Bool := y == z || z ≥ 100 && y % 2 == z - 100

def sum : Ref Nat Nat Nat := ⟨fun m x => (m + x, some (m + x)), 99⟩

def parity : Ref Nat Nat Nat := ⟨fun m x => ((m + x) % 2, if x = 0 then none else some (100 + (m + x) % 2)), 7⟩

example : ∀ i x, [3, 0, 4][i]? = some x → AgreeAt accMethod accClk accEq ([sum] ++ [parity]) (0, 0) (fun _ => 0) [3, 0, 4] i x := by
  intro i x hx j r hr z hz
  match i, hx with
  | 0, hx | 1, hx | 2, hx =>
    cases hx
    match j, hr with
    | 0, hr | 1, hr =>
      cases hr
      simp [modelled, sum, parity] at hz
      try subst hz
      try rfl

example : cyclesOf accMethod accClk (0, 0) [3, 0, 4] = 6 := by decide

/-- The model before the method finds the overflow. -/
example : [3, 0, 5][2]? = some 5 ∧
    ¬ AgreeAt accMethod accClk accEq ([sum] ++ [parity]) (0, 0) (fun _ => 0) [3, 0, 5] 2 5 := by
  refine ⟨rfl, fun h => ?_⟩
  exact absurd (h 0 sum rfl 8 rfl) (by decide)

end Toffee.BenchMix
