import Verif.Lemmas.BenchMixAfter
import Verif.Props.BenchMix

/-! C121: hooks that share their state and all run after the method. -/

namespace Toffee.BenchMix

open Toffee.Loop Toffee.LoopSym
open Toffee.Bench (runMeth runFor)

variable {X Y D M : Type}

/-! ### Specification -/

/-- The calls in bouts, each with its number: a call that takes clock cycles begins a new one; `p` are the calls of
the bout so far. -/
def bouts (method : X → Meth Y D) (clk : D → D) : D → Nat → List (Nat × X) → List X → List (List (Nat × X))
  | _, _, p, [] => [p]
  | d, i, p, x :: xs =>
    if 0 < (runMeth clk (method x) d).2.2 then
      p :: bouts method clk (runMeth clk (method x) d).2.1 (i + 1) [(i, x)] xs
    else bouts method clk (runMeth clk (method x) d).2.1 (i + 1) (p ++ [(i, x)]) xs

/-- The hooks of a bout, by priority; among equals in the order of the calls. -/
def bout (rs : List (Ref X Y M)) (p : List (Nat × X)) : List (Nat × X × Ref X Y M) :=
  (p.flatMap fun q => rs.map fun r => (q.1, q.2, r)).mergeSort fun q q' => decide (q.2.2.prio ≤ q'.2.2.prio)

/-- All hooks of all calls. -/
def afterwards (b : Bench X Y D M) (d : D) (xs : List X) (m : M) : M × List (Nat × Option Y) :=
  consult (m, []) ((bouts b.method b.clk d 0 [] xs).flatMap (bout b.post))

/-- On call number `i` the method returns what the hooks return, as far as they return something. -/
def AgreeAfter (b : Bench X Y D M) (d : D) (m : M) (xs : List X) (i : Nat) (x : X) : Prop :=
  ∀ z, (i, some z) ∈ (afterwards b d xs m).2 →
    b.eq (runMeth b.clk (b.method x) (driven b.method b.clk d (xs.take i))).1 z = true

/-! ### Proof -/

section

variable {b : Bench X Y D M} {xs : List X} {xa : Nat → X} {ra : Nat → Ref X Y M}

theorem srt_bout (h : Gh b xs xa ra) (a K : Nat) :
    (srt ra (posts b a K)).map (fun q => (q.1, xa q.1, ra q.2)) =
      bout b.post ((List.range' a K).map fun k => (k, xa k)) := by
  have h1 := sorted_map (fun q : Nat × Nat => (q.1, xa q.1, ra q.2))
    ((posts b a K).map fun q => (q, (ra q.2).prio))
  have h2 := sorted_mergeSort (fun q : Nat × X × Ref X Y M => q.2.2.prio)
    ((posts b a K).map fun q => (q.1, xa q.1, ra q.2))
  rw [List.map_map] at h1 h2
  have h3 := congrArg (List.map Prod.fst) (h1.symm.trans h2)
  rw [List.map_map, List.map_map] at h3
  unfold srt
  rw [List.map_map]
  refine h3.trans ?_
  rw [show (Prod.fst ∘ fun a : Nat × X × Ref X Y M => (a, a.2.2.prio)) = id from rfl, List.map_id]
  unfold bout
  congr 1
  unfold posts
  rw [List.map_flatMap, List.flatMap_map]
  congr 1
  funext k
  rw [List.map_map]
  exact map_range_post h fun r => (k, xa k, r)

theorem consult_append (s : M × List (Nat × Option Y)) (l l' : List (Nat × X × Ref X Y M)) :
    consult s (l ++ l') = consult (consult s l) l' := by
  unfold consult; rw [List.foldl_append]

end

theorem like_ga {b : Bench X Y D M} {xs : List X} {x0 : X} {ra : Nat → Ref X Y M} (h : Gh b xs (xOf x0 xs) ra)
    (d : D) (g0 : G Y D M) {cy : Nat → Nat}
    (hcy : ∀ i, cy i = (runMeth b.clk (b.method (xOf x0 xs i)) (dOf b.method b.clk d (xOf x0 xs) i)).2.2) (r : Nat) :
    ∀ (i : Nat) (s : M × List (Nat × Option Y)), i + 1 + r = xs.length →
      Like (ga b (xOf x0 xs) ra cy xs.length g0 i).2 s →
      Like (ga b (xOf x0 xs) ra cy xs.length g0 xs.length).2
        (consult s ((bouts b.method b.clk (dOf b.method b.clk d (xOf x0 xs) (i + 1)) (i + 1)
          ((List.range' (ga b (xOf x0 xs) ra cy xs.length g0 i).1
            (i + 1 - (ga b (xOf x0 xs) ra cy xs.length g0 i).1)).map fun k => (k, xOf x0 xs k))
          (xs.drop (i + 1))).flatMap (bout b.post))) := by
  induction r with
  | zero =>
    intro i s hi hs
    rw [List.drop_eq_nil_of_le (by omega)]
    have e : ga b (xOf x0 xs) ra cy xs.length g0 xs.length = ga b (xOf x0 xs) ra cy xs.length g0 (i + 1) := by
      rw [show xs.length = i + 1 by omega]
    rw [e, ga, if_pos (.inl (by omega)), bouts, List.flatMap_singleton, ← srt_bout h]
    exact hs.items _
  | succ r ih =>
    intro i s hi hs
    have hd : xs.drop (i + 1) = xOf x0 xs (i + 1) :: xs.drop (i + 1 + 1) := by
      rw [List.drop_eq_getElem_cons (by omega)]
      simp [xOf, show i + 1 < xs.length by omega]
    rw [hd, bouts, ← hcy]
    have hg : ga b (xOf x0 xs) ra cy xs.length g0 (i + 1) = _ := ga.eq_2 ..
    by_cases hc : 0 < cy (i + 1)
    · rw [if_pos hc, List.flatMap_cons, consult_append, ← srt_bout h]
      rw [if_pos (.inr hc)] at hg
      have := ih (i + 1) _ (by omega) (by rw [hg]; exact hs.items _)
      rw [show (ga b (xOf x0 xs) ra cy xs.length g0 (i + 1)).1 = i + 1 by rw [hg], show i + 1 + 1 - (i + 1) = 1 by omega] at this
      exact this
    · rw [if_neg hc]
      rw [if_neg (by omega)] at hg
      have := ih (i + 1) s (by omega) (by rw [hg]; exact hs)
      rw [hg] at this
      have hle := ga_le (b := b) (xa := xOf x0 xs) (ra := ra) (cy := cy) (n := xs.length) (g := g0) i
      rw [show i + 1 + 1 - (ga b (xOf x0 xs) ra cy xs.length g0 i).1 =
        i + 1 - (ga b (xOf x0 xs) ra cy xs.length g0 i).1 + 1 by omega, List.range'_concat, List.map_append,
        Nat.one_mul, show (ga b (xOf x0 xs) ra cy xs.length g0 i).1 + (i + 1 - (ga b (xOf x0 xs) ra cy xs.length g0 i).1) =
          i + 1 by omega] at this
      exact this

/-- The whole run, seen from its specification. -/
theorem verdict_after (b : Bench X Y D M) (hb : b.pre = []) (xs : List X) (d : D) (m : M) :
    ((∀ i x, xs[i]? = some x → AgreeAfter b d m xs i x) →
      ∃ q, To (sys b xs) (begin ⟨d, m, fun _ => []⟩) q ∧
        Good b (driven b.method b.clk d xs) (cyclesOf b.method b.clk d xs)
          (fun g => g.ref = (afterwards b d xs m).1) q) ∧
    ((∃ i x, xs[i]? = some x ∧ ¬ AgreeAfter b d m xs i x) →
      ∃ q, To (sys b xs) (begin ⟨d, m, fun _ => []⟩) q ∧ Bad q) := by
  cases hxs : xs with
  | nil =>
    refine ⟨fun _ => ?_, fun ⟨i, x, h, _⟩ => by simp at h⟩
    obtain ⟨q, h1, h2, h3, h4, h5, h6, h7, h8⟩ := calm_end (b := b) (xs := ([] : List X))
      (n := 1) (E := 1) (g := ⟨d, m, fun _ => []⟩) (c := 0)
    refine ⟨q, (begin_calm rfl).trans h1, h2, h3, h4, h5, h6, by rw [h7]; rfl, h8, ?_⟩
    rw [h7]
    simp [afterwards, consult, bouts, bout]
  | cons x0 xs' =>
    have hx0 : xOf x0 xs 0 = x0 := by rw [hxs]; rfl
    have hlen : xs.length = xs'.length + 1 := by rw [hxs]; rfl
    have hxs1 : xs.drop 1 = xs' := by rw [hxs]; rfl
    have hbt : (bouts b.method b.clk d 0 [] xs).flatMap (bout b.post) =
        (bouts b.method b.clk (dOf b.method b.clk d (xOf x0 xs) 1) 1 [(0, x0)] (xs.drop 1)).flatMap (bout b.post) := by
      rw [hxs1, dOf, dOf, hx0, hxs, bouts]
      split
      · rw [List.flatMap_cons]
        simp [bout]
      · rfl
    rw [← hxs]
    obtain ⟨ra, h⟩ : ∃ ra, Gh b xs (xOf x0 xs) ra := by
      refine ⟨fun j => rOf (b.pre ++ b.post) j, ?_, ?_, ?_⟩
      · intro i hi; simp [xOf, hi]
      · intro j hj
        have : (b.pre ++ b.post)[j]? = some b.pre[j] := by rw [List.getElem?_append_left hj]; simp [hj]
        simp [rOf, this, hj]
      · intro j hj
        simp [rOf, hj]
    have hC := claim_begin (b := b) (g := ⟨d, m, fun _ => []⟩)
      (ya := fun i => (runMeth b.clk (b.method (xOf x0 xs i)) (dOf b.method b.clk d (xOf x0 xs) i)).1)
      (da := dOf b.method b.clk d (xOf x0 xs))
      (cy := fun i => (runMeth b.clk (b.method (xOf x0 xs i)) (dOf b.method b.clk d (xOf x0 xs) i)).2.2)
      h (models_after ⟨d, m, fun _ => []⟩ hb)
      (fun _ _ _ _ _ h => h)
      (fun i hi => rfl)
      ⟨rfl, rfl, rfl⟩ rfl
    rw [total_eq _ 0 (by omega)] at hC
    rw [dOf_eq _ (Nat.le_refl _), List.take_length] at hC
    have hL := like_ga h d ⟨d, m, fun _ => []⟩ (fun _ => rfl) xs'.length 0 (m, []) (by omega) ⟨rfl, fun i => rfl⟩
    change Like _ (consult (m, []) ((bouts b.method b.clk (dOf b.method b.clk d (xOf x0 xs) 1) 1 [(0, xOf x0 xs 0)]
      (xs.drop 1)).flatMap (bout b.post))) at hL
    rw [hx0, ← hbt] at hL
    have hok : ∀ j, j < xs.length →
        (okIn b (fun i => (runMeth b.clk (b.method (xOf x0 xs i)) (dOf b.method b.clk d (xOf x0 xs) i)).1)
          (ga b (xOf x0 xs) ra (fun i => (runMeth b.clk (b.method (xOf x0 xs i))
            (dOf b.method b.clk d (xOf x0 xs) i)).2.2) xs.length ⟨d, m, fun _ => []⟩ xs.length).2 j = true ↔
        ∀ x, xs[j]? = some x → AgreeAfter b d m xs j x) := by
      intro i hi
      have hx : xs[i]? = some (xOf x0 xs i) := by simp [xOf, hi]
      unfold okIn
      rw [List.all_eq_true, hL.2]
      constructor
      · intro h x hx' z hz
        rw [hx] at hx'
        cases hx'
        have := h (some z) (List.mem_map.2 ⟨(i, some z), List.mem_filter.2 ⟨hz, by simp⟩, rfl⟩)
        rw [← dOf_eq (x0 := x0) _ (by omega)]
        exact this
      · intro h o ho
        cases o with
        | none => rfl
        | some z =>
          obtain ⟨⟨i', o⟩, hm, ho'⟩ := List.mem_map.1 ho
          obtain ⟨hm, hi'⟩ := List.mem_filter.1 hm
          have e : i' = i := by simpa using hi'
          have e' : o = some z := ho'
          rw [e, e'] at hm
          have := h _ hx z hm
          rw [← dOf_eq (x0 := x0) _ (by omega)] at this
          exact this
    refine ⟨fun h => ?_, fun ⟨i, x, h1, h2⟩ => ?_⟩
    · obtain ⟨q, h1, h2⟩ := hC.1 fun j _ hj => (hok j hj).2 fun x hx => h j x hx
      exact ⟨q, h1, { h2 with inv := h2.inv.2.1.trans hL.1 }⟩
    · have hi : i < xs.length := (List.getElem?_eq_some_iff.1 h1).1
      refine hC.2 ⟨i, Nat.zero_le i, hi, ?_⟩
      rw [Bool.eq_false_iff]
      intro h
      exact h2 ((hok i hi).1 h x h1)

/-! ### Theorems -/

/-- **C121.** If the hooks share their state and all of them run after the method, then they run in this
order: the calls come in bouts, a call that takes clock cycles beginning a new one; bout by bout the hooks of all its
calls run by priority, among equals in the order of the calls.  If all results agree, the run passes and leaves the
state this order gives. -/
theorem C121_after_pass (b : Bench X Y D M) (hb : b.pre = []) (xs : List X) (d : D) (m : M) (due : Nat → List Nat)
    (h : ∀ i x, xs[i]? = some x → AgreeAfter b d m xs i x) :
    ∃ n, ∀ k, n ≤ k → Passes (runFor (sys b xs) due (start d m) k) ∧
      (runFor (sys b xs) due (start d m) k).cycles = cyclesOf b.method b.clk d xs + 2 ∧
      (runFor (sys b xs) due (start d m) k).g.dut = b.clk (b.clk (driven b.method b.clk d xs)) ∧
      (runFor (sys b xs) due (start d m) k).g.ref = (afterwards b d xs m).1 := by
  obtain ⟨q, hq, hg⟩ := (verdict_after b hb xs d m).1 h
  obtain ⟨n, hn⟩ := reach _ xs d m due hq hg.cur hg.batch hg.stopping
  exact ⟨n, fun k hk => hg.passes (hn k hk)⟩

/-- **C121.** If some result does not agree, the run fails. -/
theorem C121_after_fail (b : Bench X Y D M) (hb : b.pre = []) (xs : List X) (d : D) (m : M) (due : Nat → List Nat)
    (i : Nat) (x : X) (hx : xs[i]? = some x) (h : ¬ AgreeAfter b d m xs i x) :
    ∃ n, ∀ k, n ≤ k → Fails (runFor (sys b xs) due (start d m) k) := by
  obtain ⟨q, hq, hg⟩ := (verdict_after b hb xs d m).2 ⟨i, x, hx, h⟩
  obtain ⟨n, hn⟩ := reach _ xs d m due hq hg.cur hg.batch hg.stopping
  exact ⟨n, fun k hk => hg.fails (hn k hk)⟩

/-- **C121.** The verdict for hooks that share their state, all of them running after the method. -/
theorem C121_after_verdict (b : Bench X Y D M) (hb : b.pre = []) (xs : List X) (d : D) (m : M)
    (due : Nat → List Nat) :
    (∃ n, Passes (runFor (sys b xs) due (start d m) n)) ↔ ∀ i x, xs[i]? = some x → AgreeAfter b d m xs i x := by
  constructor
  · rintro ⟨n, hn⟩ i x hx
    apply Classical.byContradiction
    intro h
    obtain ⟨n', hn'⟩ := C121_after_fail b hb xs d m due i x hx h
    have h1 := hn' (max n n') (by omega)
    rw [LoopStutter.stay _ _ _ n hn.1 _ (by omega)] at h1
    have := h1.2.1
    rw [hn.2.1] at this
    cases this
  · intro h
    obtain ⟨n, hn⟩ := C121_after_pass b hb xs d m due h
    exact ⟨n, (hn n (Nat.le_refl n)).1⟩

/-- Every call takes a clock cycle. -/
def Slow (method : X → Meth Y D) (clk : D → D) : D → List X → Prop
  | _, [] => True
  | d, x :: xs => 0 < (runMeth clk (method x) d).2.2 ∧ Slow method clk (runMeth clk (method x) d).2.1 xs

theorem bouts_slow (method : X → Meth Y D) (clk : D → D) (xs : List X) : ∀ (d : D) (i : Nat) (p : List (Nat × X)),
    Slow method clk d xs →
      bouts method clk d i p xs = p :: (xs.zipIdx i).map fun q => [(q.2, q.1)] := by
  induction xs with
  | nil => intro d i p _; rfl
  | cons x xs ih =>
    intro d i p h
    rw [bouts, if_pos h.1, ih _ _ _ h.2]
    rfl

/-- **C121.** The order claimed: if every call takes a clock cycle, the hooks of one call, all of them after the
method, are run before those of the next, by priority. -/
theorem C121_after_order (b : Bench X Y D M) (xs : List X) (d : D) (m : M) (h : Slow b.method b.clk d xs) :
    afterwards b d xs m = consult (m, []) (xs.zipIdx.flatMap fun q =>
      (b.post.mergeSort fun r r' => decide (r.prio ≤ r'.prio)).map fun r => (q.2, q.1, r)) := by
  unfold afterwards
  rw [bouts_slow _ _ _ _ _ _ h, List.flatMap_cons, List.flatMap_map]
  have h0 : bout b.post ([] : List (Nat × X)) = [] := by simp [bout]
  rw [h0, List.nil_append]
  congr 2
  funext q
  have h1 := sorted_mergeSort (fun q : Nat × X × Ref X Y M => q.2.2.prio) (b.post.map fun r => (q.2, q.1, r))
  have h2 := sorted_mergeSort (fun r : Ref X Y M => r.prio) b.post
  have h3 := sorted_map (fun r : Ref X Y M => (q.2, q.1, r)) (b.post.map fun r => (r, r.prio))
  rw [List.map_map] at h1 h3
  have h4 := congrArg (List.map Prod.fst) (h1.symm.trans (h3.trans (congrArg _ h2)))
  simp only [List.map_map] at h4
  unfold bout
  simp only [List.flatMap_cons, List.flatMap_nil, List.append_nil]
  refine Eq.trans ?_ (h4.trans ?_)
  · rw [show (Prod.fst ∘ fun a : Nat × X × Ref X Y M => (a, a.2.2.prio)) = id from rfl, List.map_id]
  · rfl

/-! ### What does depend on the order -/

/-- Two hooks after the method, of the priorities 0 and 1; the method takes no clock cycle if the stimulus is
smaller than 10, and one otherwise. -/
def quick : Bench Nat Nat Nat (List (Nat × Nat)) where
  method := fun x => if x < 10 then .ret x else .step (.ret x)
  clk := fun d => d + 1
  pre := []
  post := [note 1 1, note 0 0]
  eq := fun y z => y == z

set_option maxRecDepth 20000 in
/-- **C121, violated.** That the hooks of one call are run before those of the next one is not so either if all of
them run after the method: the hooks of calls that take no clock cycle run together with those of the call
before, by priority. -/
theorem C121_after_violated :
    (Passes (runFor (sys quick [7, 8]) (fun _ => []) (start 0 []) 200) ∧
      (runFor (sys quick [7, 8]) (fun _ => []) (start 0 []) 200).g.ref = [(0, 7), (0, 8), (1, 7), (1, 8)]) ∧
    (runFor (sys quick [7, 18]) (fun _ => []) (start 0 []) 200).g.ref = [(0, 7), (1, 7), (0, 18), (1, 18)] := by
  refine ⟨⟨⟨⟨?_, ?_, ?_⟩, ?_, ?_⟩, ?_⟩, ?_⟩
  · decide +kernel
  · decide +kernel
  · decide +kernel
  · decide +kernel
  · rfl
  · decide +kernel
  · decide +kernel

/-- The bouts of these calls. -/
example : bouts quick.method quick.clk 0 0 [] [7, 8, 18, 19, 9] =
    [[(0, 7), (1, 8)], [(2, 18)], [(3, 19), (4, 9)]] := by decide

/-- The hypotheses of the theorems are met: nothing is returned by these hooks. -/
example : quick.pre = [] ∧ ∀ i x, [7, 18][i]? = some x → AgreeAfter quick 0 [] [7, 18] i x := by
  refine ⟨rfl, ?_⟩
  intro i x _ z hz
  have hb : bouts quick.method quick.clk 0 0 [] [7, 18] = [[(0, 7)], [(1, 18)]] := by decide
  have h : (afterwards quick 0 [7, 18] []).2 = [(0, none), (0, none), (1, none), (1, none)] := by
    unfold afterwards
    rw [hb]
    simp [bout, quick, List.mergeSort, List.MergeSort.Internal.splitInTwo, note, consult]
  rw [h] at hz
  simp at hz

example : Slow quick.method quick.clk 0 [17, 18, 19] := ⟨by decide, by decide, by decide, trivial⟩

/-- A model of a sum, its hook after the method; the DUT adds at once. -/
def sumAfter : Bench Nat Nat Nat Nat where
  method := fun x => .write (fun d => d + x) (.read fun d => .ret d)
  clk := id
  pre := []
  post := [⟨fun m x => (m + x, some (m + x)), 0⟩]
  eq := fun y z => y == z

/-- A model that adds wrongly is found. -/
example : ¬ AgreeAfter sumAfter 0 1 [3] 0 3 := by
  intro h
  have hb : bouts sumAfter.method sumAfter.clk 0 0 [] [3] = [[(0, 3)]] := by decide
  have := h 4 (by
    unfold afterwards
    rw [hb]
    simp [bout, sumAfter, consult])
  exact absurd this (by decide)

end Toffee.BenchMix
